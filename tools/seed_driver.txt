import Lean
open Lean Elab

abbrev Cache := Std.HashMap Name (Array Name)

/-- the constants of modules Verif.* (and the error axiom) used by n, cached -/
def usedV (env : Environment) (n : Name) : StateM Cache (Array Name) := do
  if let some r := (← get)[n]? then return r
  let keep (c : Name) : Bool :=
    c == ("so" ++ "rryAx").toName || match env.getModuleIdxFor? c with
      | none => false
      | some i => (`Verif).isPrefixOf env.header.moduleNames[i.toNat]!
  let r : Array Name := match env.find? n with
    | none => #[]
    | some ci =>
      let a := ci.type.getUsedConstants
      let b := match ci.value? (allowOpaque := true) with | some v => v.getUsedConstants | none => #[]
      (a ++ b).filter keep
  modify fun m => m.insert n r
  return r

/-- does n depend on the error axiom, looking only into constants of modules Verif.* -/
partial def collV (env : Environment) (n : Name) : StateT (NameSet × Bool) (StateM Cache) Unit := do
  let s ← get
  if s.1.contains n then return
  modify fun s => (s.1.insert n, s.2 || n == ("so" ++ "rryAx").toName)
  for c in ← usedV env n do collV env c

/-- args: compile src modname out.olean | axioms name1 name2 ... (reads names from file) -/
unsafe def main (args : List String) : IO UInt32 := do
  initSearchPath (← findSysroot)
  enableInitializersExecution
  match args with
  | ["compile", src, modn, out] =>
    let input ← IO.FS.readFile src
    let inputCtx := Parser.mkInputContext input src
    let (header, ps, msgs) ← Parser.parseHeader inputCtx
    let (env, msgs) ← processHeader header {} msgs inputCtx
    let env := env.setMainModule modn.toName
    let s ← IO.processCommands inputCtx ps (Command.mkState env msgs {})
    let mut bad := false
    for m in s.commandState.messages.toList do
      if m.severity == .error then
        bad := true
        IO.println (← m.toString)
    writeModule s.commandState.env out
    return (if bad then 1 else 0)
  | ["axioms", modn, file, dn] =>
    let env ← importModules #[{module := modn.toName}] {} (loadExts := false)
    let names := (← IO.FS.readFile file).splitOn "\n" |>.filter (· ≠ "")
    let mut cache : Cache := {}
    for n in names do
      let nm := n.toName
      if env.contains nm then
        let ((_, s), cache') := ((collV env nm).run ({}, false)).run cache
        cache := cache'
        if s.2 then IO.println s!"BROKEN {n}"
        else if s.1.contains dn.toName then IO.println s!"USES {n}"
      else IO.println s!"MISSING {n}"
    return 0
  | _ => return 2
