import Verif.Plot.DrawLemmas

/-!
# C167, C168: what is drawn of systems with leads
-/

set_option linter.unusedSectionVars false

namespace Kwant.Draw
open Kwant Kwant.Assoc Kwant.Builder Kwant.Final Kwant.Graph

section
variable {S V Fn N A X P : Type} [LinearOrder S] [DecidableEq N] [AddCommGroup P]

/-! ## Lists of sites and hoppings of a lead -/

/-- Sites in the fundamental cell of a lead, each once. -/
structure SiteList (sym : Symmetry S ℤ) (L : HMap S V Fn) (xs : List S) : Prop where
  nodup : xs.Nodup
  lev : ∀ x ∈ xs, sym.which x = 0
  all : ∀ a, sym.act (-sym.which a) a ∈ xs ↔ HasSite sym L a

/-- Level of a hopping: the last cell it touches. -/
def hlev (sym : Symmetry S ℤ) (h : S × S) : ℤ := max (sym.which h.1) (sym.which h.2)

/-- Translation of a hopping. -/
def htr (sym : Symmetry S ℤ) (g : ℤ) (h : S × S) : S × S := (sym.act g h.1, sym.act g h.2)

/-- Hoppings within the fundamental cell and to previous cells, each in one direction. -/
structure HopList (sym : Symmetry S ℤ) (L : HMap S V Fn) (xs : List (S × S)) : Prop where
  nodup : xs.Nodup
  lev : ∀ x ∈ xs, hlev sym x = 0
  one : ∀ a b, (a, b) ∈ xs → (b, a) ∉ xs
  all : ∀ a b, (htr sym (-hlev sym (a, b)) (a, b) ∈ xs ∨ htr sym (-hlev sym (b, a)) (b, a) ∈ xs) ↔
    HasHop sym L a b

theorem siteShow {pos : S → P} {b : Built S V Fn P} (hl : b.sym.Lawful)
    {xs : List S} (hx : SiteList b.sym b.H xs) (dom : ℤ) (n : ℕ) :
    Shows pos (LeadSite b.sym b.H dom n) ((copies b.sym.act xs dom n).map pos) := by
  refine ⟨_, rfl, nodup_copies hl.act_zero hl.act_add hl.which_act hx.lev hx.nodup dom n, ?_⟩
  intro a
  rw [mem_copies hl.act_zero hl.act_add hl.which_act hx.lev, hx.all]
  rfl

theorem htr_lev {sym : Symmetry S ℤ} (hl : sym.Lawful) (g : ℤ) (h : S × S) :
    hlev sym (htr sym g h) = g + hlev sym h := by
  simp only [hlev, htr, hl.which_act]
  omega

theorem htr_zero {sym : Symmetry S ℤ} (hl : sym.Lawful) (h : S × S) : htr sym 0 h = h := by
  simp [htr, hl.act_zero]

theorem htr_add {sym : Symmetry S ℤ} (hl : sym.Lawful) (g k : ℤ) (h : S × S) :
    htr sym g (htr sym k h) = htr sym (g + k) h := by
  simp [htr, hl.act_add]

theorem hlev_swap (sym : Symmetry S ℤ) (a b : S) : hlev sym (b, a) = hlev sym (a, b) := max_comm _ _

theorem hopShow {pos : S → P} {b : Built S V Fn P} (hl : b.sym.Lawful)
    {xs : List (S × S)} (hx : HopList b.sym b.H xs) (dom : ℤ) (n : ℕ) :
    ShowsPairs pos (LeadHop b.sym b.H dom n)
      ((copies (htr b.sym) xs dom n).map fun h => (pos h.1, pos h.2)) := by
  have hm := fun y => mem_copies (tr := htr b.sym) (lev := hlev b.sym) (htr_zero hl) (htr_add hl) (htr_lev hl)
    hx.lev (dom := dom) (n := n) y
  refine ⟨_, rfl, nodup_copies (htr_zero hl) (htr_add hl) (htr_lev hl) hx.lev hx.nodup dom n, ?_, ?_⟩
  · intro x y h1 h2
    rw [hm] at h1 h2
    rw [hlev_swap] at h2
    exact hx.one _ _ h1.1 h2.1
  · intro x y
    rw [hm, hm, LeadHop, ← hx.all]
    have e := hlev_swap b.sym x y
    have e' : max (b.sym.which x) (b.sym.which y) = hlev b.sym (x, y) := rfl
    rw [e', e]
    tauto

/-! ## Builders -/

variable {sym : Symmetry S ℤ} {L : HMap S V Fn}

theorem hop_symm {G : Type} [AddCommGroup G] [DecidableEq G] {sym : Symmetry S G} {L : HMap S V Fn}
    (h : Reachable sym L) {a b : S} (hh : HasHop sym L a b) : HasHop sym L b a := by
  obtain ⟨_, _, _, _, h5, _⟩ := C27_enumeration (hc := (id : V → V)) h
  rw [h5] at hh ⊢
  obtain ⟨p, ⟨hp, hp'⟩, hu⟩ := hh
  exact ⟨p, ⟨hp, hp'.symm⟩, fun q hq => hu q ⟨hq.1, hq.2.symm⟩⟩

theorem hop_act {G : Type} [AddCommGroup G] [DecidableEq G] {sym : Symmetry S G} {L : HMap S V Fn}
    (h : Reachable sym L) (g : G) (a b : S) :
    HasHop sym L (sym.act g a) (sym.act g b) ↔ HasHop sym L a b := by
  obtain ⟨hl, hw⟩ := h.wf
  rw [hasHop_iff hw hl, hasHop_iff hw hl, hl.toFd2_act, Ne, Ne, hl.act_inj]

theorem hop_ne {G : Type} [AddCommGroup G] [DecidableEq G] {sym : Symmetry S G} {L : HMap S V Fn}
    (h : Reachable sym L) {a b : S} (hh : HasHop sym L a b) : a ≠ b := by
  obtain ⟨hl, hw⟩ := h.wf
  exact ((hasHop_iff hw hl).mp hh).1

theorem siteList_builder (h : Reachable sym L) : SiteList sym L (sites L) := by
  obtain ⟨hl, hw⟩ := h.wf
  refine ⟨hw.keys, hw.fd, ?_⟩
  intro a
  rw [hasSite_iff]
  rfl

theorem hopList_builder (h : Reachable sym L) : HopList sym L (leadHoppings sym L) := by
  obtain ⟨hl, hw⟩ := h.wf
  obtain ⟨_, _, h3, h4, h5, _⟩ := C27_enumeration (hc := (id : V → V)) h
  have key : ∀ h : S × S, (sym.act (-max (sym.which h.2) (sym.which h.1)) h.1,
      sym.act (-max (sym.which h.2) (sym.which h.1)) h.2) = htr sym (-hlev sym h) h := by
    intro h
    simp only [htr, hlev, max_comm]
  have e : leadHoppings sym L = (hoppings L).map fun h => htr sym (-hlev sym h) h := by
    unfold leadHoppings
    apply List.map_congr_left
    intro h _
    exact key h
  have eqv : ∀ p q : S × S, htr sym (-hlev sym p) p = htr sym (-hlev sym q) q → HopEquiv sym p.1 p.2 q.1 q.2 := by
    intro p q he
    have := congrArg (htr sym (hlev sym q)) he
    rw [htr_add hl, htr_add hl, add_neg_cancel, htr_zero hl] at this
    exact ⟨_, (congrArg Prod.fst this).symm, (congrArg Prod.snd this).symm⟩
  have self : ∀ q : S × S, HopEquiv sym q.1 q.2 q.1 q.2 := fun q =>
    ⟨0, (hl.act_zero _).symm, (hl.act_zero _).symm⟩
  refine ⟨?_, ?_, ?_, ?_⟩
  · rw [e]
    apply List.Nodup.map_on _ h3
    intro p hp q hq he
    exact ((h5 _ _).mp (h4 q hq)).unique ⟨hp, Or.inl (eqv p q he)⟩ ⟨hq, Or.inl (self q)⟩
  · intro x hx
    rw [e] at hx
    obtain ⟨p, _, rfl⟩ := List.mem_map.mp hx
    rw [htr_lev hl]
    omega
  · intro a b h1 h2
    rw [e] at h1 h2
    obtain ⟨p, hp, ep⟩ := List.mem_map.mp h1
    obtain ⟨q, hq, eq⟩ := List.mem_map.mp h2
    have e2 : htr sym (-hlev sym p) p = htr sym (-hlev sym q.swap) q.swap := by
      have : htr sym (-hlev sym q.swap) q.swap = (htr sym (-hlev sym q) q).swap := by
        obtain ⟨q1, q2⟩ := q
        simp [htr, hlev, max_comm]
      rw [this, ep, eq]
      rfl
    have hpq : p = q := ((h5 _ _).mp (h4 q hq)).unique ⟨hp, Or.inr (eqv _ _ e2)⟩ ⟨hq, Or.inl (self q)⟩
    subst hpq
    rw [ep] at eq
    have hab : a = b := congrArg Prod.fst eq
    have hn := hop_ne h (h4 p hp)
    have e1 := congrArg Prod.fst ep
    have e3 := congrArg Prod.snd ep
    simp only [htr] at e1 e3
    apply hn
    apply (hl.act_inj (g := -hlev sym p)).mp
    rw [e1, e3, hab]
  · intro a b
    constructor
    · have one : ∀ a b, htr sym (-hlev sym (a, b)) (a, b) ∈ leadHoppings sym L → HasHop sym L a b := by
        intro a b hm
        rw [e] at hm
        obtain ⟨p, hp, ep⟩ := List.mem_map.mp hm
        have := h4 p hp
        rw [← hop_act h (-hlev sym p)] at this
        have e1 := congrArg Prod.fst ep
        have e2 := congrArg Prod.snd ep
        simp only [htr] at e1 e2
        rw [e1, e2, hop_act h] at this
        exact this
      rintro (hm | hm)
      · exact one _ _ hm
      · exact hop_symm h (one _ _ hm)
    · intro hh
      have two : ∀ (p : S × S) a b, p ∈ hoppings L → HopEquiv sym p.1 p.2 a b →
          htr sym (-hlev sym (a, b)) (a, b) ∈ leadHoppings sym L := by
        rintro p a b hp ⟨g, rfl, rfl⟩
        rw [e]
        refine List.mem_map.mpr ⟨p, hp, ?_⟩
        have e1 : (sym.act g p.1, sym.act g p.2) = htr sym g p := rfl
        rw [e1, htr_lev hl, htr_add hl]
        congr 1
        omega
      obtain ⟨p, ⟨hp, hp' | hp'⟩, _⟩ := (h5 _ _).mp hh
      · exact Or.inl (two p _ _ hp hp')
      · exact Or.inr (two p _ _ hp hp')

/-! ## Assembling the picture -/

/-- Two lists whose entries are related. -/
theorem forall₂_of {α β : Type} {R : α → β → Prop} : ∀ {l : List α} {m : List β}, l.length = m.length →
    (∀ (k : ℕ) a b, l[k]? = some a → m[k]? = some b → R a b) → List.Forall₂ R l m
  | [], [], _, _ => .nil
  | a :: l, b :: m, hlen, h => .cons (h 0 a b rfl rfl)
      (forall₂_of (by simpa using hlen) fun k x y hx hy => h (k + 1) x y (by simpa using hx) (by simpa using hy))
  | [], _ :: _, hlen, _ => by simp at hlen
  | _ :: _, [], hlen, _ => by simp at hlen

/-- What the law of positions says about copies. -/
theorem copies_map {X Q α : Type} [AddCommGroup Q] {tr : ℤ → X → X} {f : X → Q} {v : Q}
    (hf : ∀ g x, f (tr g x) = f x + g • v) (conv : α → X) (os : List α) (dom : ℤ) (n : ℕ) :
    (copies tr (os.map conv) dom n).map f = os.flatMap fun o => (List.range n).map fun i : ℕ =>
      f (conv o) + (dom + 1 + (i : ℤ)) • v := by
  unfold copies
  rw [List.flatMap_map, List.map_flatMap]
  congr 1
  funext o
  rw [List.map_map]
  apply List.map_congr_left
  intro i _
  exact hf _ _

/-- The parts of a picture are right if the lists of objects are. -/
theorem parts {α Λ Y Q : Type} [AddCommGroup Q] {show' : Built S V Fn P → ℤ → List Q → Prop}
    {f : Y → Q} {n : ℕ} {conv : ℕ → α → Y} {objs : Λ → List α} {tab : List (Q × ℤ)} {cleads : List Λ}
    {leads : List (Option (Built S V Fn P))} {ps : List Q} {sl : List (ℕ × ℕ)}
    (tr : Built S V Fn P → ℤ → Y → Y) (vec : Built S V Fn P → Q)
    (hlen : sl.length = leads.length) (hlen2 : cleads.length = leads.length) (hlen3 : tab.length = leads.length)
    (hs : ∀ (k : ℕ) (s : ℕ × ℕ) (l : Λ) (vd : Q × ℤ), sl[k]? = some s → cleads[k]? = some l → tab[k]? = some vd →
      slice ps s = (objs l).flatMap fun o => (List.range n).map fun i : ℕ =>
        f (conv k o) + (vd.2 + (i : ℤ)) • vd.1)
    (hnone : ∀ (k : ℕ) (l : Λ), leads[k]? = some none → cleads[k]? = some l → objs l = [])
    (hempty : ∀ (k : ℕ) (l : Λ) (b : Built S V Fn P), leads[k]? = some (some b) → cleads[k]? = some l → b.interface = [] → objs l = [])
    (hsome : ∀ (k : ℕ) (l : Λ) (b : Built S V Fn P) (i : S) (r : List S) (vd : Q × ℤ), leads[k]? = some (some b) → cleads[k]? = some l → b.interface = i :: r →
      tab[k]? = some vd → vd = (vec b, b.sym.which i + 1) ∧
      (∀ g x, f (tr b g x) = f x + g • vec b) ∧
      show' b (b.sym.which i) ((copies (tr b) ((objs l).map (conv k)) (b.sym.which i) n).map f)) :
    List.Forall₂ (fun s l => leadPart show' (slice ps s) l) sl leads := by
  apply forall₂_of hlen
  intro k s l h1 h2
  have hk := (List.getElem?_eq_some_iff.mp h2).1
  have h3 : cleads[k]? = some (cleads[k]'(by omega)) := List.getElem?_eq_getElem (by omega)
  have h4 : tab[k]? = some (tab[k]'(by omega)) := List.getElem?_eq_getElem (by omega)
  generalize cleads[k]'(by omega) = c at h3
  generalize tab[k]'(by omega) = vd at h4
  have hsl := hs k s c vd h1 h3 h4
  cases l with
  | none =>
    rw [hnone k c h2 h3] at hsl
    exact hsl
  | some b =>
    cases hb : b.interface with
    | nil =>
      rw [hempty k c b h2 h3 hb] at hsl
      simp only [leadPart, hb]
      simpa using hsl
    | cons i r =>
      obtain ⟨rfl, hf, hsh⟩ := hsome k c b i r vd h2 h3 hb h4
      simp only [leadPart, hb]
      simp only at hsl
      rw [copies_map hf] at hsh
      rw [hsl]
      exact hsh

end
end Kwant.Draw
