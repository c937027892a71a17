import Verif.Wrap.Props

/-! # C66: the loops of `wraparound` -/
set_option linter.unusedSectionVars false

namespace Kwant.Wrap
open Kwant Kwant.Builder Kwant.Assoc

variable {S A V GR : Type} [DecidableEq S] [AddCommGroup GR] [DecidableEq GR]
  [AddCommGroup V] [Module ℂ V] [StarAddMonoid V] [StarModule ℂ V]
variable {k m : ℕ}
variable {num : A → ℝ} {momenta : List String} {env : String → A}
variable {symO : Symmetry S (Fin k → ℤ)} {symW : Symmetry S (Fin m → ℤ)} {symR : Symmetry S GR}
  {emb : Fin m → Fin k}

/-- An entry of `hopping_value_pairs`. -/
abbrev Entry (S A V : Type) := (S × S) × Val V (PFn S A V)

/-- The value of the entry with its phase. -/
noncomputable def pv (num : A → ℝ) (momenta : List String) (env : String → A) (symO : Symmetry S (Fin k → ℤ))
    (emb : Fin m → Fin k) (p : Entry S A V) : V :=
  bloch num momenta env (bDom symO emb p.1.2) • evalVal env p.2 [p.1.1, p.1.2]

/-- `(a, b)` is an image of the wrapped hopping of the entry. -/
def Hit (symO : Symmetry S (Fin k → ℤ)) (symW : Symmetry S (Fin m → ℤ)) (symR : Symmetry S GR)
    (emb : Fin m → Fin k) (p : Entry S A V) (a b : S) : Prop :=
  HopEquiv symR (wrapHop symO symW symR emb p.1.1 p.1.2).1 (wrapHop symO symW symR emb p.1.1 p.1.2).2 a b

open Classical in
/-- Contribution of an entry to the matrix element `(a, b)`. -/
noncomputable def contrib (num : A → ℝ) (momenta : List String) (env : String → A)
    (symO : Symmetry S (Fin k → ℤ)) (symW : Symmetry S (Fin m → ℤ)) (symR : Symmetry S GR)
    (emb : Fin m → Fin k) (p : Entry S A V) (a b : S) : V :=
  (if Hit symO symW symR emb p a b then pv num momenta env symO emb p else 0) +
  (if Hit symO symW symR emb p b a then star (pv num momenta env symO emb p) else 0)

local notation "KK" => wrapHop symO symW symR emb
local notation "ctr" => contrib num momenta env symO symW symR emb

theorem contrib_swap (p : Entry S A V) (a b : S) : ctr p b a = star (ctr p a b) := by
  classical
  unfold contrib
  by_cases h1 : Hit symO symW symR emb p a b <;> by_cases h2 : Hit symO symW symR emb p b a <;>
    simp [h1, h2, add_comm]

theorem sum_contrib_swap (ps : List (Entry S A V)) (a b : S) :
    (ps.map fun p => ctr p b a).sum = star (ps.map fun p => ctr p a b).sum := by
  induction ps with
  | nil => simp
  | cons p ps ih => simp [ih, contrib_swap (num := num) (momenta := momenta) (env := env) p a b]

section
variable (sp : Split symO symW symR emb)
include sp

theorem hit_act (p : Entry S A V) (r : GR) (a b : S) :
    Hit symO symW symR emb p (symR.act r a) (symR.act r b) ↔ Hit symO symW symR emb p a b := by
  unfold Hit HopEquiv
  constructor
  · rintro ⟨g, e1, e2⟩
    refine ⟨-r + g, ?_, ?_⟩
    · rw [← sp.lR.act_add, ← e1, sp.lR.act_neg_act]
    · rw [← sp.lR.act_add, ← e2, sp.lR.act_neg_act]
  · rintro ⟨g, e1, e2⟩
    exact ⟨r + g, by rw [← sp.lR.act_add, ← e1], by rw [← sp.lR.act_add, ← e2]⟩

theorem contrib_act (p : Entry S A V) (r : GR) (a b : S) : ctr p (symR.act r a) (symR.act r b) = ctr p a b := by
  classical
  unfold contrib
  simp only [hit_act sp]

theorem contrib_equiv (ps : List (Entry S A V)) {a b x y : S} (h : HopEquiv symR a b x y) :
    (ps.map fun p => ctr p x y).sum = (ps.map fun p => ctr p a b).sum := by
  obtain ⟨r, rfl, rfl⟩ := h
  simp only [contrib_act sp]

theorem hit_iff_toFd2 (p : Entry S A V) (a b : S) :
    Hit symO symW symR emb p a b ↔ symR.toFd2 a b = KK p.1.1 p.1.2 := by
  unfold Hit HopEquiv
  rw [← toFd2_eq_iff sp.lR, wrapHop]
  rw [show symR.toFd2 (symR.toFd2 p.1.1 (symW.act (-bDom symO emb p.1.2) p.1.2)).1
      (symR.toFd2 p.1.1 (symW.act (-bDom symO emb p.1.2) p.1.2)).2 =
      symR.toFd2 p.1.1 (symW.act (-bDom symO emb p.1.2) p.1.2) from sp.lR.toFd2_act _ _ _]

theorem KK_canon (x y : S) : symR.which (KK x y).1 = 0 := toFd2_fst_fd sp.lR _ _

/-- The wrapped hopping of an entry, un-wrapped: it is a kept translation away from the original one. -/
theorem KK_shift (x y : S) : ∃ r, (KK x y).1 = symR.act r x ∧
    symW.act (bDom symO emb y) (KK x y).2 = symR.act r y := by
  refine ⟨-symR.which x, rfl, ?_⟩
  show symW.act (bDom symO emb y) (symR.act (-symR.which x) (symW.act (-bDom symO emb y) y)) = _
  rw [sp.comm, sp.W_cancel]

theorem inv_bindHopping {v : Val V (PFn S A V)} (h : InvVal symO v) (w : Fin m → ℤ) :
    InvVal symR (.func (bindHopping num momenta symW.act w v)) := by
  intro r ss args
  have hR := sp.invR h
  simp only [callVal, bindHopping]
  match ss with
  | [] => rfl
  | [_] => rfl
  | [a, b] =>
    have := hR r [a, symW.act w b] (sliceTo momenta.length args)
    simp only [List.map_cons, List.map_nil] at this ⊢
    rw [sp.comm]
    exact congrArg _ this
  | _ :: _ :: _ :: _ => rfl

theorem inv_bindHoppingAsSite {v : Val V (PFn S A V)} (h : InvVal symO v) (w : Fin m → ℤ) :
    InvVal symR (.func (bindHoppingAsSite num momenta symW.act w v)) := by
  intro r ss args
  have hR := sp.invR h
  show (bindHoppingAsSite num momenta symW.act w v).call _ _ = (bindHoppingAsSite num momenta symW.act w v).call _ _
  simp only [bindHoppingAsSite]
  match ss with
  | [] => rfl
  | [a] =>
    have := hR r [a, symW.act w a] (sliceTo momenta.length args)
    simp only [List.map_cons, List.map_nil] at this ⊢
    rw [sp.comm, this]
  | _ :: _ :: _ => rfl

theorem inv_bindSiteVal {v : Val V (PFn S A V)} (h : InvVal symO v) : InvVal symR (bindSiteVal momenta v) := by
  have hR := sp.invR h
  cases v with
  | const c => exact hR
  | func f => intro r ss args; exact hR r ss _
  | herm f => intro r ss args; exact hR r ss _

theorem inv_wrapVal {v : Val V (PFn S A V)} (h : InvVal symO v) (b : S) :
    InvVal symR (wrapVal num momenta symO symW emb b v) := by
  unfold wrapVal
  split
  · exact inv_bindHopping sp h _
  · exact sp.invR h

/-- The value assigned to the wrapped hopping. -/
theorem eval_wrapVal (hm : 0 < momenta.length) (p : Entry S A V) (h : InvVal symO p.2) :
    evalVal env (wrapVal num momenta symO symW emb p.1.2 p.2) [(KK p.1.1 p.1.2).1, (KK p.1.1 p.1.2).2] =
      pv num momenta env symO emb p := by
  obtain ⟨r, e1, e2⟩ := KK_shift sp p.1.1 p.1.2
  unfold wrapVal
  split
  · rw [evalVal_bindHopping hm, e2, e1]
    exact congrArg _ ((sp.invR h).eval r [p.1.1, p.1.2])
  · rename_i hn
    push Not at hn
    obtain ⟨hd, hcall⟩ := hn
    unfold pv
    rw [hd, bloch_zero, one_smul]
    cases hv : p.2 with
    | const c => rfl
    | func f => rw [hv] at hcall; exact absurd rfl hcall
    | herm f => rw [hv] at hcall; exact absurd rfl hcall

theorem eval_asSite (hm : 0 < momenta.length) (p : Entry S A V) (h : InvVal symO p.2)
    (hd : (KK p.1.1 p.1.2).1 = (KK p.1.1 p.1.2).2) :
    evalVal env (.func (bindHoppingAsSite num momenta symW.act (bDom symO emb p.1.2) p.2)) [(KK p.1.1 p.1.2).1] =
      pv num momenta env symO emb p + star (pv num momenta env symO emb p) := by
  obtain ⟨r, e1, e2⟩ := KK_shift sp p.1.1 p.1.2
  rw [evalVal_bindHoppingAsSite hm]
  have : evalVal env p.2 [(KK p.1.1 p.1.2).1, symW.act (bDom symO emb p.1.2) (KK p.1.1 p.1.2).1] =
      evalVal env p.2 [p.1.1, p.1.2] := by
    rw [show symW.act (bDom symO emb p.1.2) (KK p.1.1 p.1.2).1 =
      symW.act (bDom symO emb p.1.2) (KK p.1.1 p.1.2).2 by rw [← hd], e2, e1]
    exact (sp.invR h).eval r [p.1.1, p.1.2]
  rw [this]; rfl

end

/-! ## Appending to lists -/

theorem get_appendTo {κ : Type} [DecidableEq κ] (d : Lists κ S A V) (key x : κ) (v : Val V (PFn S A V)) :
    get (appendTo d key v) x = if key = x then some ((get d key).getD [] ++ [v]) else get d x := by
  unfold appendTo
  cases h : get d key <;> simp [get_put]

theorem keys_appendTo_mem {κ : Type} [DecidableEq κ] (d : Lists κ S A V) (key x : κ) (v : Val V (PFn S A V)) :
    x ∈ keys (appendTo d key v) ↔ x = key ∨ x ∈ keys d := by
  unfold appendTo
  cases h : get d key <;> simp [mem_keys_put]

theorem nodup_appendTo {κ : Type} [DecidableEq κ] (d : Lists κ S A V) (key : κ) (v : Val V (PFn S A V))
    (h : (keys d).Nodup) : (keys (appendTo d key v)).Nodup := by
  unfold appendTo
  cases get d key <;> exact nodup_put h

/-! ## Invariant of the second loop -/

/-- A value acceptable in the lists. -/
structure OkVal (momenta : List String) (symR : Symmetry S GR) (v : Val V (PFn S A V)) : Prop where
  shaped : Shaped momenta v
  inv : InvVal symR v

variable (num momenta env symO symW symR emb) in
/-- Invariant: `done` are the entries processed so far, `init` the dictionary of sites at the start. -/
structure Good (init : Lists S S A V) (done : List (Entry S A V)) (st : St S A V) : Prop where
  skeys : ∀ a, a ∈ keys st.1 ↔ a ∈ keys init
  snodup : (keys st.1).Nodup
  sites : ∀ a vals0, get init (symR.toFd a) = some vals0 → ∃ vals, get st.1 (symR.toFd a) = some vals ∧
    (vals.map fun v => evalVal env v [a]).sum =
      (vals0.map fun v => evalVal env v [a]).sum + (done.map fun p => ctr p a a).sum
  sok : ∀ a vals, get st.1 a = some vals → ∀ v ∈ vals, OkVal momenta symR v
  hnodup : (keys st.2).Nodup
  canon : ∀ q ∈ keys st.2, symR.which q.1 = 0 ∧ q.1 ≠ q.2 ∧ symR.toFd2 q.2 q.1 ∉ keys st.2 ∧
    q.1 ∈ keys init ∧ symR.toFd q.2 ∈ keys init
  hops : ∀ q vals, get st.2 q = some vals →
    (vals.map fun v => evalVal env v [q.1, q.2]).sum = (done.map fun p => ctr p q.1 q.2).sum
  hok : ∀ q vals, get st.2 q = some vals → ∀ v ∈ vals, OkVal momenta symR v
  cover : ∀ p ∈ done, (KK p.1.1 p.1.2).1 ≠ (KK p.1.1 p.1.2).2 →
    KK p.1.1 p.1.2 ∈ keys st.2 ∨ symR.toFd2 (KK p.1.1 p.1.2).2 (KK p.1.1 p.1.2).1 ∈ keys st.2
  /-- Every key stems from an entry. -/
  origin : ∀ q ∈ keys st.2, ∃ p ∈ done, Hit symO symW symR emb p q.1 q.2 ∨ Hit symO symW symR emb p q.2 q.1

theorem shaped_asSite (w : Fin m → ℤ) (v : Val V (PFn S A V)) :
    Shaped momenta (.func (bindHoppingAsSite num momenta symW.act w v)) := .inr ⟨valParams v, rfl⟩

theorem shaped_wrapVal (b : S) (v : Val V (PFn S A V)) :
    Shaped momenta (wrapVal num momenta symO symW emb b v) := by
  unfold wrapVal
  split
  · exact .inr ⟨valParams v, rfl⟩
  · rename_i hn
    push Not at hn
    cases v with
    | const c => exact .inl ⟨c, rfl⟩
    | func f => exact absurd rfl hn.2
    | herm f => exact absurd rfl hn.2

theorem shaped_conj {v : Val V (PFn S A V)} (h : Shaped momenta v) : Shaped momenta (v.conj star) := by
  rcases h with ⟨c, rfl⟩ | ⟨own, h⟩
  · exact .inl ⟨_, rfl⟩
  · cases v with
    | const c => exact .inl ⟨_, rfl⟩
    | func f => exact .inr ⟨own, h⟩
    | herm f => exact .inr ⟨own, h⟩

theorem shaped_bindSiteVal (v : Val V (PFn S A V)) : Shaped momenta (bindSiteVal momenta v) := by
  cases v with
  | const c => exact .inl ⟨c, rfl⟩
  | func f => exact .inr ⟨f.params, rfl⟩
  | herm f => exact .inr ⟨f.params, rfl⟩

theorem wrapVal_not_herm (b : S) (v : Val V (PFn S A V)) (f) : wrapVal num momenta symO symW emb b v ≠ .herm f := by
  unfold wrapVal
  split
  · intro h; cases h
  · rename_i hn
    push Not at hn
    intro h; subst h; exact hn.2 rfl

section
variable (sp : Split symO symW symR emb)
include sp

theorem toFd2_swap (q : S × S) (hq : symR.which q.1 = 0) :
    symR.toFd2 (symR.toFd2 q.2 q.1).2 (symR.toFd2 q.2 q.1).1 = q := by
  have := rev_rev sp.lR hq q.2
  simpa [rev] using this

open Classical in
/-- What an entry contributes to a canonical off-diagonal key. -/
theorem contrib_key (p : Entry S A V) {q : S × S} (hq : symR.which q.1 = 0) :
    ctr p q.1 q.2 = (if KK p.1.1 p.1.2 = q then pv num momenta env symO emb p else 0) +
      (if symR.toFd2 (KK p.1.1 p.1.2).2 (KK p.1.1 p.1.2).1 = q then star (pv num momenta env symO emb p) else 0) := by
  unfold contrib
  have h1 : Hit symO symW symR emb p q.1 q.2 ↔ KK p.1.1 p.1.2 = q := by
    rw [hit_iff_toFd2 sp, toFd2_of_fd sp.lR hq, eq_comm]
  have h2 : Hit symO symW symR emb p q.2 q.1 ↔ symR.toFd2 (KK p.1.1 p.1.2).2 (KK p.1.1 p.1.2).1 = q := by
    rw [hit_iff_toFd2 sp]
    constructor
    · intro h; rw [← h]; exact toFd2_swap sp q hq
    · intro h
      rw [← h]; exact toFd2_swap sp _ (KK_canon sp _ _)
  simp only [h1, h2]

theorem good_step (hm : 0 < momenta.length) {init : Lists S S A V} {done : List (Entry S A V)} {st : St S A V}
    (h : Good num momenta env symO symW symR emb init done st) (p : Entry S A V) (hinv : InvVal symO p.2)
    (hk1 : symR.toFd p.1.1 ∈ keys init) (hk2 : symR.toFd (symW.act (-bDom symO emb p.1.2) p.1.2) ∈ keys init) :
    ∃ st', hopStep num momenta symO symW symR emb st p = .ok st' ∧
      Good num momenta env symO symW symR emb init (done ++ [p]) st' := by
  have hKc := KK_canon sp p.1.1 p.1.2
  have hK1 : (KK p.1.1 p.1.2).1 = symR.toFd p.1.1 := rfl
  have hK2 : symR.toFd (KK p.1.1 p.1.2).2 ∈ keys init := by
    have : symR.toFd (KK p.1.1 p.1.2).2 = symR.toFd (symW.act (-bDom symO emb p.1.2) p.1.2) :=
      sp.lR.toFd_act _ _
    rw [this]; exact hk2
  by_cases hd : (KK p.1.1 p.1.2).1 = (KK p.1.1 p.1.2).2
  · -- onsite
    have hmem : (KK p.1.1 p.1.2).1 ∈ keys st.1 := by rw [h.skeys, hK1]; exact hk1
    refine ⟨_, by simp only [hopStep]; rw [if_pos hd, if_pos hmem], ?_⟩
    have hctr0 : ∀ q : S × S, q.1 ≠ q.2 → symR.which q.1 = 0 → ctr p q.1 q.2 = 0 := by
      intro q hq1 hq2
      have e1 : KK p.1.1 p.1.2 ≠ q := by rintro rfl; exact hq1 hd
      have e2 : symR.toFd2 (KK p.1.1 p.1.2).2 (KK p.1.1 p.1.2).1 ≠ q := by
        rintro rfl
        exact toFd2_ne sp.lR (x := (KK p.1.1 p.1.2).2) (y := (KK p.1.1 p.1.2).1) |> fun f => by
          apply hq1; rw [← hd]; rfl
      rw [contrib_key sp p hq2, if_neg e1, if_neg e2, add_zero]
    refine ⟨?_, nodup_appendTo _ _ _ h.snodup, ?_, ?_, h.hnodup, h.canon, ?_, h.hok, ?_, ?_⟩
    · intro a
      rw [keys_appendTo_mem, ← h.skeys]
      constructor
      · rintro (rfl | h') <;> assumption
      · exact .inr
    · intro a vals0 hv0
      obtain ⟨vals, e1, e2⟩ := h.sites a vals0 hv0
      have hHit : Hit symO symW symR emb p a a ↔ (KK p.1.1 p.1.2).1 = symR.toFd a := by
        rw [hit_iff_toFd2 sp]
        constructor
        · intro h'; rw [← h']; rfl
        · intro h'
          have e3 : symR.toFd2 a a = (symR.toFd a, symR.toFd a) := rfl
          rw [e3, ← h']
          exact Prod.ext rfl hd
      rw [get_appendTo]
      by_cases hka : (KK p.1.1 p.1.2).1 = symR.toFd a
      · refine ⟨_, by rw [if_pos hka], ?_⟩
        rw [hka, e1]
        simp only [Option.getD_some, List.map_append, List.sum_append, e2, List.map_cons, List.map_nil,
          List.sum_cons, List.sum_nil, add_zero]
        rw [add_assoc]
        congr 2
        have := (inv_bindHoppingAsSite (num := num) (momenta := momenta) sp hinv (bDom symO emb p.1.2)).eval
          (env := env) (-symR.which a) [a]
        rw [← this]
        rw [show [a].map (symR.act (-symR.which a)) = [(KK p.1.1 p.1.2).1] from by rw [hka]; rfl]
        rw [eval_asSite sp hm p hinv hd, contrib, if_pos (hHit.mpr hka), if_pos (hHit.mpr hka)]
      · refine ⟨vals, by rw [if_neg hka]; exact e1, ?_⟩
        rw [e2]
        simp only [List.map_append, List.sum_append, List.map_cons, List.map_nil, List.sum_cons, List.sum_nil]
        have hn : ¬ Hit symO symW symR emb p a a := fun h' => hka (hHit.mp h')
        rw [contrib, if_neg hn, if_neg hn]
        simp
    · intro a vals hg v hv
      rw [get_appendTo] at hg
      by_cases hka : (KK p.1.1 p.1.2).1 = a
      · rw [if_pos hka] at hg
        obtain rfl := Option.some.inj hg
        rw [List.mem_append, List.mem_singleton] at hv
        rcases hv with hv | rfl
        · cases hgg : get st.1 (KK p.1.1 p.1.2).1 with
          | none => rw [hgg] at hv; simp at hv
          | some l => rw [hgg] at hv; exact h.sok _ l hgg v hv
        · exact ⟨shaped_asSite _ _, inv_bindHoppingAsSite sp hinv _⟩
      · rw [if_neg hka] at hg
        exact h.sok a vals hg v hv
    · intro q vals hg
      have hq := h.canon q (mem_keys_of_get hg)
      rw [h.hops q vals hg]
      simp [hctr0 q hq.2.1 hq.1]
    · intro p' hp' hne
      rw [List.mem_append, List.mem_singleton] at hp'
      rcases hp' with hp' | rfl
      · exact h.cover p' hp' hne
      · exact absurd hd hne
    · intro q hq
      obtain ⟨p', hp', e⟩ := h.origin q hq
      exact ⟨p', by simp [hp'], e⟩
  · -- a hopping
    have hdiag : ∀ a, ctr p a a = 0 := by
      intro a
      have hn : ¬ Hit symO symW symR emb p a a := by
        rw [hit_iff_toFd2 sp]
        intro e
        apply hd; rw [← e]; rfl
      rw [contrib, if_neg hn, if_neg hn, add_zero]
    have hsites : ∀ a vals0, get init (symR.toFd a) = some vals0 → ∃ vals, get st.1 (symR.toFd a) = some vals ∧
        (vals.map fun v => evalVal env v [a]).sum =
          (vals0.map fun v => evalVal env v [a]).sum + ((done ++ [p]).map fun p => ctr p a a).sum := by
      intro a vals0 hv0
      obtain ⟨vals, e1, e2⟩ := h.sites a vals0 hv0
      exact ⟨vals, e1, by rw [e2]; simp [hdiag]⟩
    -- the key that receives the value, and the value
    obtain ⟨key, v, hstep, hkey, hvv, hvok, hrev, hco⟩ : ∃ key v,
        hopStep num momenta symO symW symR emb st p = .ok (st.1, appendTo st.2 key v) ∧
        (symR.which key.1 = 0 ∧ key.1 ≠ key.2 ∧ key.1 ∈ keys init ∧ symR.toFd key.2 ∈ keys init) ∧
        evalVal env v [key.1, key.2] = ctr p key.1 key.2 ∧ OkVal momenta symR v ∧
        symR.toFd2 key.2 key.1 ∉ keys st.2 ∧
        ((key = KK p.1.1 p.1.2 ∨ key = symR.toFd2 (KK p.1.1 p.1.2).2 (KK p.1.1 p.1.2).1)) := by
      have hvok : OkVal momenta symR (wrapVal num momenta symO symW emb p.1.2 p.2) :=
        ⟨shaped_wrapVal _ _, inv_wrapVal sp hinv _⟩
      have hev := eval_wrapVal (env := env) (num := num) sp hm p hinv
      have hne' : KK p.1.1 p.1.2 ≠ symR.toFd2 (KK p.1.1 p.1.2).2 (KK p.1.1 p.1.2).1 := by
        intro e; exact rev_ne sp.lR hd e.symm
      by_cases hr : symR.toFd2 (KK p.1.1 p.1.2).2 (KK p.1.1 p.1.2).1 ∈ keys st.2
      · have hnot : KK p.1.1 p.1.2 ∉ keys st.2 := by
          have := (h.canon _ hr).2.2.1
          rwa [toFd2_swap sp _ hKc] at this
        refine ⟨symR.toFd2 (KK p.1.1 p.1.2).2 (KK p.1.1 p.1.2).1,
          (wrapVal num momenta symO symW emb p.1.2 p.2).conj star, ?_, ?_, ?_, ?_, ?_, .inr rfl⟩
        · simp only [hopStep]
          rw [if_neg hd, if_pos hr, if_neg hnot]
          have := wrapVal_not_herm (num := num) (momenta := momenta) (symO := symO) (symW := symW) (emb := emb) p.1.2 p.2
          cases hw : wrapVal num momenta symO symW emb p.1.2 p.2 with
          | const c => rfl
          | func f => rfl
          | herm f => exact absurd hw (this f)
        · refine ⟨toFd2_fst_fd sp.lR _ _, toFd2_ne sp.lR (Ne.symm hd), hK2, ?_⟩
          have : symR.toFd (symR.toFd2 (KK p.1.1 p.1.2).2 (KK p.1.1 p.1.2).1).2 = symR.toFd (KK p.1.1 p.1.2).1 :=
            sp.lR.toFd_act _ _
          rw [this, hK1, sp.lR.toFd_of_which (sp.lR.which_toFd _)]; exact hk1
        · rw [contrib_key sp p (toFd2_fst_fd sp.lR _ _), if_neg hne', if_pos rfl, zero_add, evalVal_conj]
          congr 1
          rw [← hev]
          exact hvok.inv.eval (-symR.which (KK p.1.1 p.1.2).2) [(KK p.1.1 p.1.2).1, (KK p.1.1 p.1.2).2]
        · exact ⟨shaped_conj hvok.shaped, hvok.inv.conj⟩
        · rw [toFd2_swap sp _ hKc]; exact hnot
      · refine ⟨KK p.1.1 p.1.2, wrapVal num momenta symO symW emb p.1.2 p.2, ?_, ⟨hKc, hd, by rw [hK1]; exact hk1, hK2⟩, ?_, hvok, hr, .inl rfl⟩
        · simp only [hopStep]
          rw [if_neg hd, if_neg hr]
        · rw [hev, contrib_key sp p hKc, if_pos rfl, if_neg (Ne.symm hne'), add_zero]
    refine ⟨_, hstep, h.skeys, h.snodup, hsites, h.sok, nodup_appendTo _ _ _ h.hnodup, ?_, ?_, ?_, ?_, ?_⟩
    · intro q hq
      rw [keys_appendTo_mem] at hq
      simp only [keys_appendTo_mem, not_or]
      rcases hq with rfl | hq
      · refine ⟨hkey.1, hkey.2.1, ⟨?_, hrev⟩, hkey.2.2⟩
        intro e; exact rev_ne sp.lR hkey.2.1 e
      · obtain ⟨c1, c2, c3, c4⟩ := h.canon q hq
        refine ⟨c1, c2, ⟨?_, c3⟩, c4⟩
        intro e
        apply hrev
        rw [← e, toFd2_swap sp q c1]; exact hq
    · intro q vals hg
      rw [get_appendTo] at hg
      by_cases hkq : key = q
      · rw [if_pos hkq] at hg
        obtain rfl := Option.some.inj hg
        subst hkq
        have hold : (((get st.2 key).getD []).map fun v => evalVal env v [key.1, key.2]).sum =
            (done.map fun p => ctr p key.1 key.2).sum := by
          cases hgg : get st.2 key with
          | some l => exact h.hops key l hgg
          | none =>
            have hno : key ∉ keys st.2 := get_eq_none.mp hgg
            symm
            simp only [Option.getD_none, List.map_nil, List.sum_nil]
            apply List.sum_eq_zero
            intro x hx
            obtain ⟨p', hp', rfl⟩ := List.mem_map.mp hx
            rw [contrib_key sp p' hkey.1]
            have e1 : KK p'.1.1 p'.1.2 ≠ key := by
              intro e
              have hne : (KK p'.1.1 p'.1.2).1 ≠ (KK p'.1.1 p'.1.2).2 := by rw [e]; exact hkey.2.1
              rcases h.cover p' hp' hne with c | c
              · rw [e] at c; exact hno c
              · rw [e] at c; exact hrev c
            have e2 : symR.toFd2 (KK p'.1.1 p'.1.2).2 (KK p'.1.1 p'.1.2).1 ≠ key := by
              intro e
              have hne : (KK p'.1.1 p'.1.2).1 ≠ (KK p'.1.1 p'.1.2).2 := by
                intro e'
                apply hkey.2.1
                rw [← e, ← e']; rfl
              rcases h.cover p' hp' hne with c | c
              · have : symR.toFd2 key.2 key.1 = KK p'.1.1 p'.1.2 := by
                  rw [← e]; exact toFd2_swap sp _ (KK_canon sp _ _)
                rw [← this] at c; exact hrev c
              · rw [e] at c; exact hno c
            rw [if_neg e1, if_neg e2, add_zero]
        simp only [List.map_append, List.sum_append, hold, List.map_cons, List.map_nil, List.sum_cons, List.sum_nil,
          hvv]
      · rw [if_neg hkq] at hg
        have hq := h.canon q (mem_keys_of_get hg)
        rw [h.hops q vals hg]
        have e1 : ctr p q.1 q.2 = 0 := by
          rw [contrib_key sp p hq.1]
          have hqr : symR.toFd2 key.2 key.1 ≠ q := by
            intro e; rw [e] at hrev; exact hrev (mem_keys_of_get hg)
          rcases hco with e | e
          · rw [← e, if_neg hkq, if_neg hqr, add_zero]
          · have : KK p.1.1 p.1.2 = symR.toFd2 key.2 key.1 := by
              rw [e]; exact (toFd2_swap sp _ hKc).symm
            rw [← e, if_neg hkq, this, if_neg hqr, add_zero]
        simp [e1]
    · intro q vals hg v' hv'
      rw [get_appendTo] at hg
      by_cases hkq : key = q
      · rw [if_pos hkq] at hg
        obtain rfl := Option.some.inj hg
        rw [List.mem_append, List.mem_singleton] at hv'
        rcases hv' with hv' | rfl
        · cases hgg : get st.2 key with
          | none => rw [hgg] at hv'; simp at hv'
          | some l => rw [hgg] at hv'; exact h.hok _ l hgg v' hv'
        · exact hvok
      · rw [if_neg hkq] at hg
        exact h.hok q vals hg v' hv'
    · intro p' hp' hne
      simp only [keys_appendTo_mem]
      rw [List.mem_append, List.mem_singleton] at hp'
      rcases hp' with hp' | rfl
      · rcases h.cover p' hp' hne with c | c
        · exact .inl (.inr c)
        · exact .inr (.inr c)
      · rcases hco with e | e
        · exact .inl (.inl e.symm)
        · exact .inr (.inl e.symm)
    · intro q hq
      rw [keys_appendTo_mem] at hq
      rcases hq with rfl | hq
      · refine ⟨p, by simp, ?_⟩
        rw [hit_iff_toFd2 sp, hit_iff_toFd2 sp, toFd2_of_fd sp.lR hkey.1]
        rcases hco with e | e
        · exact .inl e
        · right; rw [e]; exact toFd2_swap sp _ hKc
      · obtain ⟨p', hp', e⟩ := h.origin q hq
        exact ⟨p', by simp [hp'], e⟩

theorem good_loop (hm : 0 < momenta.length) {init : Lists S S A V} : ∀ (ps : List (Entry S A V))
    (done : List (Entry S A V)) (st : St S A V), Good num momenta env symO symW symR emb init done st →
    (∀ p ∈ ps, InvVal symO p.2 ∧ symR.toFd p.1.1 ∈ keys init ∧
      symR.toFd (symW.act (-bDom symO emb p.1.2) p.1.2) ∈ keys init) →
    ∃ st', hopLoop num momenta symO symW symR emb ps st = .ok st' ∧
      Good num momenta env symO symW symR emb init (done ++ ps) st' := by
  intro ps
  induction ps with
  | nil => intro done st h _; exact ⟨st, rfl, by simpa using h⟩
  | cons p ps ih =>
    intro done st h hp
    obtain ⟨h1, h2, h3⟩ := hp p (by simp)
    obtain ⟨st1, e1, g1⟩ := good_step sp hm h p h1 h2 h3
    obtain ⟨st2, e2, g2⟩ := ih (done ++ [p]) st1 g1 (fun q hq => hp q (by simp [hq]))
    refine ⟨st2, by simp [hopLoop, e1, e2], by simpa using g2⟩

end
end Kwant.Wrap
