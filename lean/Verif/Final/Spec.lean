import Verif.Final.Model

/-! Specification vocabulary for the Hamiltonian of a finalized system. -/

namespace Kwant.Final
open Kwant Kwant.Assoc Kwant.Builder

variable {S G V Fn N A X : Type} [DecidableEq S] [DecidableEq N] [AddCommGroup G] [DecidableEq G]

/-- A user function called with some sites: the further arguments are `args` if there are no `params`,
otherwise the values of its parameters (after those for the sites) looked up by name. -/
def callWith (C : Calls S V Fn N A X) (f : Fn) (ss : List S) (args : List A) (params : List (N × A)) :
    Except (HErr X) V :=
  if params = [] then (C.call f ss args).mapError .user
  else
    match C.sig f with
    | none => .error .signature
    | some ns =>
      match (ns.drop ss.length).mapM (Assoc.get params) with
      | none => .error .missing
      | some as => (C.call f ss as).mapError .user

/-- The number that a value of the builder stands for at the hopping `(a, b)`: functions are called with the
hopping moved to the fundamental domain (first site of the direction in which the function was given). -/
def hopValue (sym : Symmetry S G) (hc : V → V) (C : Calls S V Fn N A X) (v : Val V Fn) (a b : S)
    (args : List A) (params : List (N × A)) : Except (HErr X) V :=
  match v with
  | .const v => .ok v
  | .func f => callWith C f [(sym.toFd2 a b).1, (sym.toFd2 a b).2] args params
  | .herm f => (callWith C f [(sym.toFd2 b a).1, (sym.toFd2 b a).2] args params).map hc

/-- The number that a value of the builder stands for at the site `a`. -/
def siteValue (sym : Symmetry S G) (C : Calls S V Fn N A X) (v : Val V Fn) (a : S)
    (args : List A) (params : List (N × A)) : Except (HErr X) V :=
  match v with
  | .const v => .ok v
  | .func f => callWith C f [sym.toFd a] args params
  | .herm f => callWith { C with call := fun f ss as => match ss with
                                   | [s] => C.hermOnsite f s as
                                   | _ => C.call f ss as } f [sym.toFd a] args params

end Kwant.Final
