import Mathlib.Data.List.Basic
import Mathlib.Data.List.Nodup

/-!
Insertion-ordered finite maps as association lists: the model of Python dictionaries (`Builder.H`) and of
the alternating head/value lists of `Builder` (builder.py l.912-932).
-/

namespace Kwant.Assoc
variable {κ α : Type} [DecidableEq κ]

/-- The keys in insertion order. -/
def keys (l : List (κ × α)) : List κ := l.map Prod.fst

/-- `d[k]`, `none` for a `KeyError`. -/
def get : List (κ × α) → κ → Option α
  | [], _ => none
  | (k', v) :: t, k => if k' = k then some v else get t k

/-- `d[k] = v`: overwrite in place or append. -/
def put : List (κ × α) → κ → α → List (κ × α)
  | [], k, v => [(k, v)]
  | (k', v') :: t, k, v => if k' = k then (k, v) :: t else (k', v') :: put t k v

/-- `del d[k]`: remove the first entry with that key. -/
def del : List (κ × α) → κ → List (κ × α)
  | [], _ => []
  | (k', v') :: t, k => if k' = k then t else (k', v') :: del t k

@[simp] theorem keys_nil : keys ([] : List (κ × α)) = [] := rfl
@[simp] theorem keys_cons (p : κ × α) (l : List (κ × α)) : keys (p :: l) = p.1 :: keys l := rfl
@[simp] theorem get_nil (k : κ) : get ([] : List (κ × α)) k = none := rfl

theorem get_isSome {l : List (κ × α)} {k : κ} : (get l k).isSome = true ↔ k ∈ keys l := by
  induction l with
  | nil => simp
  | cons p l ih =>
    obtain ⟨k', v⟩ := p
    simp only [get, keys_cons, List.mem_cons]
    by_cases h : k' = k
    · simp [h]
    · simp [h, ih, Ne.symm h]

theorem get_eq_none {l : List (κ × α)} {k : κ} : get l k = none ↔ k ∉ keys l := by
  rw [← get_isSome]; cases get l k <;> simp

theorem mem_keys_of_get {l : List (κ × α)} {k : κ} {v : α} (h : get l k = some v) : k ∈ keys l := by
  rw [← get_isSome, h]; rfl

theorem get_of_mem_keys {l : List (κ × α)} {k : κ} (h : k ∈ keys l) : ∃ v, get l k = some v := by
  rw [← get_isSome] at h
  exact Option.isSome_iff_exists.mp h

theorem mem_of_get {l : List (κ × α)} {k : κ} {v : α} (h : get l k = some v) : (k, v) ∈ l := by
  induction l with
  | nil => simp at h
  | cons p l ih =>
    obtain ⟨k', v'⟩ := p
    simp only [get] at h
    by_cases hk : k' = k
    · simp [hk] at h; simp [hk, h]
    · simp only [hk, if_false] at h; simp [ih h]

theorem get_of_mem {l : List (κ × α)} {k : κ} {v : α} (hn : (keys l).Nodup) (h : (k, v) ∈ l) :
    get l k = some v := by
  induction l with
  | nil => simp at h
  | cons p l ih =>
    obtain ⟨k', v'⟩ := p
    simp only [keys_cons, List.nodup_cons] at hn
    simp only [List.mem_cons, Prod.mk.injEq] at h
    simp only [get]
    rcases h with ⟨rfl, rfl⟩ | h
    · simp
    · have : k ∈ keys l := List.mem_map.mpr ⟨_, h, rfl⟩
      have hk : k' ≠ k := by rintro rfl; exact hn.1 this
      simp [hk, ih hn.2 h]

theorem get_put {l : List (κ × α)} {k x : κ} {v : α} :
    get (put l k v) x = if k = x then some v else get l x := by
  induction l with
  | nil => simp [put, get]
  | cons p l ih =>
    obtain ⟨k', v'⟩ := p
    simp only [put]
    by_cases hk : k' = k
    · subst hk
      simp only [if_true, get]
      by_cases hx : k' = x <;> simp [hx]
    · simp only [hk, if_false, get, ih]
      by_cases hx : k' = x
      · subst hx; simp [Ne.symm hk]
      · simp [hx]

theorem keys_put {l : List (κ × α)} {k : κ} {v : α} :
    keys (put l k v) = if k ∈ keys l then keys l else keys l ++ [k] := by
  induction l with
  | nil => simp [put]
  | cons p l ih =>
    obtain ⟨k', v'⟩ := p
    simp only [put, keys_cons]
    by_cases hk : k' = k
    · simp [hk]
    · simp only [hk, if_false, keys_cons, ih, List.mem_cons, Ne.symm hk, false_or]
      by_cases h2 : k ∈ keys l <;> simp [h2]

theorem mem_keys_put {l : List (κ × α)} {k x : κ} {v : α} :
    x ∈ keys (put l k v) ↔ x = k ∨ x ∈ keys l := by
  rw [← get_isSome, get_put, ← get_isSome]
  by_cases h : k = x
  · simp [h]
  · simp [h, Ne.symm h]

theorem nodup_put {l : List (κ × α)} {k : κ} {v : α} (h : (keys l).Nodup) : (keys (put l k v)).Nodup := by
  rw [keys_put]
  by_cases hk : k ∈ keys l
  · simpa [hk]
  · simp only [hk, if_false]
    exact List.nodup_append.mpr ⟨h, by simp, by
      intro a ha b hb; simp at hb; subst hb; rintro rfl; exact hk ha⟩

theorem keys_del {l : List (κ × α)} {k : κ} : keys (del l k) = (keys l).erase k := by
  induction l with
  | nil => simp [del]
  | cons p l ih =>
    obtain ⟨k', v'⟩ := p
    simp only [del, keys_cons]
    by_cases hk : k' = k
    · simp [hk]
    · simp [hk, ih, List.erase_cons]

theorem get_del {l : List (κ × α)} {k x : κ} (hn : (keys l).Nodup) :
    get (del l k) x = if k = x then none else get l x := by
  induction l with
  | nil => simp [del]
  | cons p l ih =>
    obtain ⟨k', v'⟩ := p
    simp only [keys_cons, List.nodup_cons] at hn
    simp only [del]
    by_cases hk : k' = k
    · subst hk
      simp only [if_true, get]
      by_cases hx : k' = x
      · subst hx; simp only [if_true]; exact get_eq_none.mpr hn.1
      · simp [hx]
    · simp only [hk, if_false, get, ih hn.2]
      by_cases hx : k' = x
      · subst hx; simp [Ne.symm hk]
      · simp [hx]

theorem nodup_del {l : List (κ × α)} {k : κ} (h : (keys l).Nodup) : (keys (del l k)).Nodup := by
  rw [keys_del]; exact h.erase k

theorem mem_keys_del {l : List (κ × α)} {k x : κ} (h : (keys l).Nodup) :
    x ∈ keys (del l k) ↔ x ≠ k ∧ x ∈ keys l := by
  rw [keys_del, h.mem_erase_iff]

end Kwant.Assoc
