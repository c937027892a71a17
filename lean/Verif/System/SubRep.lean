import Verif.System.SubLemmas

/-! Which blocks the submatrices consist of. -/
set_option linter.unusedSectionVars false

namespace Kwant.System
open Kwant Kwant.Assoc Kwant.Final

variable {K ε : Type} [AddCommMonoid K] [StarAddMonoid K] [DecidableEq K]
variable (sys : LSys K ε) (b : Bufs K)

/-- The graph has no loops and no parallel edges. -/
structure LSys.Simple : Prop where
  nodup : ∀ i, i < sys.n → (sys.nbrs i).Nodup
  range : ∀ i, i < sys.n → ∀ j ∈ sys.nbrs i, j < sys.n
  noLoop : ∀ i, i < sys.n → i ∉ sys.nbrs i

theorem diagItem_ok {table : List (ℕ × ℕ)} {fs nfs : ℕ} {l : List (Item K)} (h : diagItem (ε := ε) b table fs nfs = .ok l) :
    (Assoc.get table fs = none ∧ l = []) ∨
    ∃ nts m, Assoc.get table fs = some nts ∧ b.diag[nfs]? = some m ∧ squareOK b m nfs = true ∧ l = [⟨nts, nfs, m, false⟩] := by
  unfold diagItem at h
  cases hg : Assoc.get table fs with
  | none => simp only [hg] at h; cases h; exact Or.inl ⟨rfl, rfl⟩
  | some nts =>
    simp only [hg] at h
    cases hd : b.diag[nfs]? with
    | none => simp [hd] at h
    | some m =>
      simp only [hd] at h
      split at h
      · next hs => cases h; exact Or.inr ⟨nts, m, rfl, rfl, hs, rfl⟩
      · cases h

theorem call_ok {i j : ℕ} {h : Mat K} : sys.call i j = .ok h ↔ sys.ham i j = .ok h := by
  unfold LSys.call
  cases sys.ham i j <;> simp

theorem nbrItem_ok {table : List (ℕ × ℕ)} {fs nfs ts : ℕ} {l : List (Item K)}
    (h : nbrItem sys b table fs nfs ts = .ok l) :
    (Assoc.get table ts = none ∧ l = []) ∨
    ∃ nts m, Assoc.get table ts = some nts ∧ sys.ham ts fs = .ok m ∧ shapeOK b m nts nfs = true ∧ l = [⟨nts, nfs, m, false⟩] := by
  unfold nbrItem at h
  cases hg : Assoc.get table ts with
  | none => simp only [hg] at h; cases h; exact Or.inl ⟨rfl, rfl⟩
  | some nts =>
    simp only [hg] at h
    cases hd : sys.call ts fs with
    | error e => simp [hd] at h
    | ok m =>
      simp only [hd] at h
      split at h
      · next hs => cases h; exact Or.inr ⟨nts, m, rfl, (call_ok sys).mp hd, hs, rfl⟩
      · cases h

theorem nbrItemF_ok {fs ts : ℕ} {l : List (Item K)} (h : nbrItemF sys b fs ts = .ok l) :
    (ts < fs ∧ l = []) ∨
    ∃ m, ¬ ts < fs ∧ sys.ham ts fs = .ok m ∧ shapeOK b m ts fs = true ∧ l = [⟨ts, fs, m, true⟩] := by
  unfold nbrItemF at h
  split at h
  · next hlt => cases h; exact Or.inl ⟨hlt, rfl⟩
  · next hlt =>
    cases hd : sys.call ts fs with
    | error e => simp [hd] at h
    | ok m =>
      simp only [hd] at h
      split at h
      · next hs => cases h; exact Or.inr ⟨m, hlt, (call_ok sys).mp hd, hs, rfl⟩
      · cases h

theorem diagItemF_ok {fs : ℕ} {l : List (Item K)} (h : diagItemF (ε := ε) b fs = .ok l) :
    ∃ m, b.diag[fs]? = some m ∧ squareOK b m fs = true ∧ l = [⟨fs, fs, m, false⟩] := by
  unfold diagItemF at h
  cases hd : b.diag[fs]? with
  | none => simp [hd] at h
  | some m =>
    simp only [hd] at h
    split at h
    · next hs => cases h; exact ⟨m, rfl, hs, rfl⟩
    · cases h

theorem emap_ok_iff {α β ε' : Type} {f : α → β} {x : Except ε' α} {y : β} : x.map f = .ok y ↔ ∃ a, x = .ok a ∧ y = f a := by
  cases x with
  | error e => simp [Except.map]
  | ok a => simp [Except.map, eq_comm]

theorem rowItems_ok {table : List (ℕ × ℕ)} {p : ℕ × ℕ} {l : List (Item K)} (h : rowItems sys b table p = .ok l) :
    diagItem (ε := ε) b table p.1 p.2 = .ok (okD (diagItem (ε := ε) b table p.1 p.2)) ∧
    (∀ ts ∈ sys.nbrs p.1, nbrItem sys b table p.1 p.2 ts = .ok (okD (nbrItem sys b table p.1 p.2 ts))) ∧
    l = okD (diagItem (ε := ε) b table p.1 p.2) ++ (sys.nbrs p.1).flatMap fun ts => okD (nbrItem sys b table p.1 p.2 ts) := by
  unfold rowItems at h
  cases hd : diagItem (ε := ε) b table p.1 p.2 with
  | error e => simp [hd] at h
  | ok l1 =>
    simp only [hd] at h
    obtain ⟨ls, h1, rfl⟩ := emap_ok_iff.mp h
    obtain ⟨h2, h3⟩ := mapE_eq_map h1
    exact ⟨rfl, h3, by rw [h2, List.flatMap_def]; rfl⟩

theorem rowItemsF_ok {fs : ℕ} {l : List (Item K)} (h : rowItemsF sys b fs = .ok l) :
    diagItemF (ε := ε) b fs = .ok (okD (diagItemF (ε := ε) b fs)) ∧
    (∀ ts ∈ sys.nbrs fs, nbrItemF sys b fs ts = .ok (okD (nbrItemF sys b fs ts))) ∧
    l = okD (diagItemF (ε := ε) b fs) ++ (sys.nbrs fs).flatMap fun ts => okD (nbrItemF sys b fs ts) := by
  unfold rowItemsF at h
  cases hd : diagItemF (ε := ε) b fs with
  | error e => simp [hd] at h
  | ok l1 =>
    simp only [hd] at h
    obtain ⟨ls, h1, rfl⟩ := emap_ok_iff.mp h
    obtain ⟨h2, h3⟩ := mapE_eq_map h1
    exact ⟨rfl, h3, by rw [h2, List.flatMap_def]; rfl⟩

/-- The blocks of a general submatrix. -/
structure GenBlocks (F T : List ℕ) (I : List (Item K)) : Prop where
  one : ∀ it ∈ I, it.two = false
  nodup : ((I.flatMap Item.blocks).map Block.key).Nodup
  shaped : ∀ x ∈ I.flatMap Item.blocks, x.2.2.rows = b.toNorb.getD x.1 0 ∧ x.2.2.cols = b.fromNorb.getD x.2.1 0 ∨
    ∃ s, T[x.1]? = some s ∧ F[x.2.1]? = some s ∧ b.diag[x.2.1]? = some x.2.2 ∧ squareOK b x.2.2 x.2.1 = true
  diag : ∀ nts nfs s : ℕ, T[nts]? = some s → F[nfs]? = some s → ∃ m, b.diag[nfs]? = some m ∧ squareOK b m nfs = true ∧
    (nts, nfs, m) ∈ I.flatMap Item.blocks
  hop : ∀ nts nfs ts fs : ℕ, T[nts]? = some ts → F[nfs]? = some fs → ts ∈ sys.nbrs fs → ∃ m, sys.ham ts fs = .ok m ∧
    shapeOK b m nts nfs = true ∧ (nts, nfs, m) ∈ I.flatMap Item.blocks
  only : ∀ x ∈ I.flatMap Item.blocks, ∃ ts fs : ℕ, T[x.1]? = some ts ∧ F[x.2.1]? = some fs ∧ (ts = fs ∨ ts ∈ sys.nbrs fs)

theorem genBlocks {F T : List ℕ} (hT : T.Nodup) (hF : ∀ s ∈ F, s < sys.n) (hs : sys.Simple) {ls : List (List (Item K))}
    (h : mapE (rowItems sys b (idTable T)) F.zipIdx = .ok ls) : GenBlocks sys b F T ls.flatten := by
  obtain ⟨hls, hok⟩ := mapE_eq_map h
  have htab : ∀ s i, Assoc.get (idTable T) s = some i ↔ T[i]? = some s := get_idTable hT
  -- every item
  have hitem : ∀ p ∈ F.zipIdx, ∀ it ∈ okD (rowItems sys b (idTable T) p),
      it.two = false ∧ it.frN = p.2 ∧
      ((T[it.toN]? = some p.1 ∧ b.diag[p.2]? = some it.h ∧ squareOK b it.h p.2 = true) ∨
        ∃ ts ∈ sys.nbrs p.1, T[it.toN]? = some ts ∧ sys.ham ts p.1 = .ok it.h ∧ shapeOK b it.h it.toN p.2 = true) := by
    intro p hp it hit
    obtain ⟨h1, h2, h3⟩ := rowItems_ok sys b (hok p hp)
    rw [h3, List.mem_append] at hit
    rcases hit with hit | hit
    · rcases diagItem_ok b h1 with ⟨_, h4⟩ | ⟨nts, m, h4, h5, h6, h7⟩
      · rw [h4] at hit; cases hit
      · rw [h7, List.mem_singleton] at hit
        subst hit
        exact ⟨rfl, rfl, Or.inl ⟨(htab _ _).mp h4, h5, h6⟩⟩
    · obtain ⟨ts, hts, hit⟩ := List.mem_flatMap.mp hit
      rcases nbrItem_ok sys b (h2 ts hts) with ⟨_, h4⟩ | ⟨nts, m, h4, h5, h6, h7⟩
      · rw [h4] at hit; cases hit
      · rw [h7, List.mem_singleton] at hit
        subst hit
        exact ⟨rfl, rfl, Or.inr ⟨ts, hts, (htab _ _).mp h4, h5, h6⟩⟩
  have hmemI : ∀ it, it ∈ ls.flatten ↔ ∃ p ∈ F.zipIdx, it ∈ okD (rowItems sys b (idTable T) p) := by
    intro it
    rw [hls, ← List.flatMap_def, List.mem_flatMap]
  have hone : ∀ it ∈ ls.flatten, it.two = false := by
    intro it hit
    obtain ⟨p, hp, hp'⟩ := (hmemI it).mp hit
    exact (hitem p hp it hp').1
  have hbl : ∀ x : Block K, x ∈ ls.flatten.flatMap Item.blocks ↔ ∃ it ∈ ls.flatten, x = (it.toN, it.frN, it.h) := by
    intro x
    rw [List.mem_flatMap]
    constructor
    · rintro ⟨it, hit, hx⟩
      simp only [Item.blocks, hone it hit, Bool.false_eq_true, if_false, List.mem_singleton] at hx
      exact ⟨it, hit, hx⟩
    · rintro ⟨it, hit, rfl⟩
      exact ⟨it, hit, by simp [Item.blocks, hone it hit]⟩
  have hzip : ∀ fs nfs, (fs, nfs) ∈ F.zipIdx ↔ F[nfs]? = some fs := fun fs nfs => List.mem_zipIdx_iff_getElem?
  refine ⟨hone, ?_, ?_, ?_, ?_, ?_⟩
  · have hmap : (ls.flatten.flatMap Item.blocks).map Block.key =
        F.zipIdx.flatMap fun p => (okD (rowItems sys b (idTable T) p)).map fun it => (it.toN, it.frN) := by
      have : (ls.flatten.flatMap Item.blocks).map Block.key = ls.flatten.map fun it => (it.toN, it.frN) := by
        rw [List.map_flatMap, ← List.flatMap_singleton' (ls.flatten.map fun it => (it.toN, it.frN)), List.flatMap_map]
        refine List.flatMap_congr fun it hit => ?_
        simp [Item.blocks, hone it hit, Block.key]
      rw [this, hls, List.map_flatten, List.map_map, List.flatMap_def]
      rfl
    rw [hmap, List.nodup_flatMap]
    constructor
    · rintro ⟨fs, nfs⟩ hp
      obtain ⟨h1, h2, h3⟩ := rowItems_ok sys b (hok _ hp)
      have hfs : fs < sys.n := hF fs (List.mem_of_getElem? ((hzip _ _).mp hp))
      rw [h3, List.map_append, List.nodup_append]
      refine ⟨?_, ?_, ?_⟩
      · rcases diagItem_ok b h1 with ⟨_, h4⟩ | ⟨nts, m, h4, h5, h6, h7⟩
        · rw [h4]; simp
        · rw [h7]; simp
      · rw [List.map_flatMap, List.nodup_flatMap]
        constructor
        · intro ts hts
          rcases nbrItem_ok sys b (h2 ts hts) with ⟨_, h4⟩ | ⟨nts, m, h4, h5, h6, h7⟩
          · rw [h4]; simp
          · rw [h7]; simp
        · refine List.Pairwise.imp_of_mem ?_ (hs.nodup fs hfs)
          intro ts ts' hts hts' hne
          simp only [Function.onFun]
          intro x hx hx'
          rcases nbrItem_ok sys b (h2 ts hts) with ⟨_, h4⟩ | ⟨nts, m, h4, h5, h6, h7⟩
          · rw [h4] at hx; cases hx
          · rcases nbrItem_ok sys b (h2 ts' hts') with ⟨_, g4⟩ | ⟨nts', m', g4, g5, g6, g7⟩
            · rw [g4] at hx'; cases hx'
            · rw [h7] at hx; rw [g7] at hx'
              simp only [List.map_cons, List.map_nil, List.mem_singleton] at hx hx'
              subst hx
              have : nts = nts' := (Prod.mk.inj hx').1
              subst this
              have e1 := (htab _ _).mp h4
              have e2 := (htab _ _).mp g4
              rw [e1] at e2; exact hne (Option.some.inj e2)
      · intro x hx y hy hxy
        subst hxy
        rcases diagItem_ok b h1 with ⟨_, h4⟩ | ⟨nts, m, h4, h5, h6, h7⟩
        · rw [h4] at hx; cases hx
        · rw [h7] at hx
          simp only [List.map_cons, List.map_nil, List.mem_singleton] at hx
          subst hx
          obtain ⟨it, hit, hk⟩ := List.mem_map.mp hy
          obtain ⟨ts, hts, hit⟩ := List.mem_flatMap.mp hit
          rcases nbrItem_ok sys b (h2 ts hts) with ⟨_, g4⟩ | ⟨nts', m', g4, g5, g6, g7⟩
          · rw [g4] at hit; cases hit
          · rw [g7, List.mem_singleton] at hit
            subst hit
            have : nts' = nts := (Prod.mk.inj hk).1
            subst this
            have e1 := (htab _ _).mp h4
            have e2 := (htab _ _).mp g4
            rw [e1] at e2
            have : fs = ts := Option.some.inj e2
            subst this
            exact hs.noLoop fs hfs hts
    · have hz : F.zipIdx.Pairwise fun p q => p.2 ≠ q.2 := by
        have := List.nodup_range' (s := 0) (n := F.length) (step := 1) (by omega)
        rw [← List.zipIdx_map_snd, List.nodup_iff_pairwise_ne, List.pairwise_map] at this
        exact this
      refine List.Pairwise.imp_of_mem ?_ hz
      intro p q hp hq hne
      simp only [Function.onFun]
      intro x hx hx'
      obtain ⟨it, hit, rfl⟩ := List.mem_map.mp hx
      obtain ⟨it', hit', hk⟩ := List.mem_map.mp hx'
      have e1 := (hitem p hp it hit).2.1
      have e2 := (hitem q hq it' hit').2.1
      have := (Prod.mk.inj hk).2
      exact hne (by rw [← e1, ← e2, this])
  · intro x hx
    obtain ⟨it, hit, rfl⟩ := (hbl x).mp hx
    obtain ⟨⟨fs, nfs⟩, hp, hp'⟩ := (hmemI it).mp hit
    obtain ⟨_, h2, h3⟩ := hitem _ hp it hp'
    simp only at h2
    rcases h3 with ⟨g1, g2, g3⟩ | ⟨ts, hts, g1, g2, g3⟩
    · refine Or.inr ⟨fs, g1, ?_, ?_, ?_⟩
      · rw [h2]; exact (hzip _ _).mp hp
      · rw [h2]; exact g2
      · rw [h2]; exact g3
    · left
      simp only [shapeOK, Bool.and_eq_true, beq_iff_eq] at g3
      simp only [h2]
      exact g3
  · intro nts nfs s h1 h2
    have hp : (s, nfs) ∈ F.zipIdx := (hzip _ _).mpr h2
    obtain ⟨e1, _, e3⟩ := rowItems_ok sys b (hok _ hp)
    rcases diagItem_ok b e1 with ⟨h4, _⟩ | ⟨nts', m, h4, h5, h6, h7⟩
    · simp only at h4
      rw [(htab s nts).mpr h1] at h4; cases h4
    · simp only at h4
      rw [(htab s nts).mpr h1] at h4; cases h4
      refine ⟨m, h5, h6, (hbl _).mpr ⟨⟨nts, nfs, m, false⟩, (hmemI _).mpr ⟨_, hp, ?_⟩, rfl⟩⟩
      rw [e3, h7]; simp
  · intro nts nfs ts fs h1 h2 hts
    have hp : (fs, nfs) ∈ F.zipIdx := (hzip _ _).mpr h2
    obtain ⟨e1, e2, e3⟩ := rowItems_ok sys b (hok _ hp)
    rcases nbrItem_ok sys b (e2 ts hts) with ⟨h4, _⟩ | ⟨nts', m, h4, h5, h6, h7⟩
    · rw [(htab ts nts).mpr h1] at h4; cases h4
    · rw [(htab ts nts).mpr h1] at h4; cases h4
      refine ⟨m, h5, h6, (hbl _).mpr ⟨⟨nts, nfs, m, false⟩, (hmemI _).mpr ⟨_, hp, ?_⟩, rfl⟩⟩
      rw [e3]
      exact List.mem_append_right _ (List.mem_flatMap.mpr ⟨ts, hts, by rw [h7]; simp⟩)
  · intro x hx
    obtain ⟨it, hit, rfl⟩ := (hbl x).mp hx
    obtain ⟨⟨fs, nfs⟩, hp, hp'⟩ := (hmemI it).mp hit
    obtain ⟨_, h2, h3⟩ := hitem _ hp it hp'
    simp only at h2
    have hfs := (hzip _ _).mp hp
    rcases h3 with ⟨g1, _, _⟩ | ⟨ts, hts, g1, _, _⟩
    · exact ⟨fs, fs, g1, by rw [h2]; exact hfs, Or.inl rfl⟩
    · exact ⟨ts, fs, g1, by rw [h2]; exact hfs, Or.inr hts⟩

/-- The blocks of the full matrix. -/
structure FullBlocks (I : List (Item K)) : Prop where
  nodup : ((I.flatMap Item.blocks).map Block.key).Nodup
  diag : ∀ s, s < sys.n → ∃ m, b.diag[s]? = some m ∧ squareOK b m s = true ∧ (s, s, m) ∈ I.flatMap Item.blocks
  hop : ∀ ts fs, fs < ts → fs < sys.n → ts ∈ sys.nbrs fs → ∃ m, sys.ham ts fs = .ok m ∧ shapeOK b m ts fs = true ∧
    (ts, fs, m) ∈ I.flatMap Item.blocks ∧ (fs, ts, m.dagger) ∈ I.flatMap Item.blocks
  only : ∀ x ∈ I.flatMap Item.blocks,
    (x.1 = x.2.1 ∧ x.1 < sys.n ∧ b.diag[x.1]? = some x.2.2 ∧ squareOK b x.2.2 x.1 = true) ∨
    (x.2.1 < x.1 ∧ x.2.1 < sys.n ∧ x.1 ∈ sys.nbrs x.2.1 ∧ sys.ham x.1 x.2.1 = .ok x.2.2 ∧ shapeOK b x.2.2 x.1 x.2.1 = true) ∨
    (x.1 < x.2.1 ∧ x.1 < sys.n ∧ x.2.1 ∈ sys.nbrs x.1 ∧ ∃ m, sys.ham x.2.1 x.1 = .ok m ∧ x.2.2 = m.dagger ∧
      shapeOK b m x.2.1 x.1 = true)

theorem fullBlocks (hs : sys.Simple) {ls : List (List (Item K))}
    (h : mapE (rowItemsF sys b) (List.range sys.n) = .ok ls) : FullBlocks sys b ls.flatten := by
  obtain ⟨hls, hok⟩ := mapE_eq_map h
  have hmemI : ∀ it, it ∈ ls.flatten ↔ ∃ fs, fs < sys.n ∧ it ∈ okD (rowItemsF sys b fs) := by
    intro it
    rw [hls, ← List.flatMap_def, List.mem_flatMap]
    simp only [List.mem_range]
  have hitem : ∀ fs, fs < sys.n → ∀ it ∈ okD (rowItemsF sys b fs), it.frN = fs ∧
      ((it = ⟨fs, fs, it.h, false⟩ ∧ b.diag[fs]? = some it.h ∧ squareOK b it.h fs = true) ∨
      (it.two = true ∧ fs < it.toN ∧ it.toN ∈ sys.nbrs fs ∧ sys.ham it.toN fs = .ok it.h ∧ shapeOK b it.h it.toN fs = true)) := by
    intro fs hfs it hit
    obtain ⟨h1, h2, h3⟩ := rowItemsF_ok sys b (hok fs (List.mem_range.mpr hfs))
    rw [h3, List.mem_append] at hit
    rcases hit with hit | hit
    · obtain ⟨m, h5, h6, h7⟩ := diagItemF_ok b h1
      rw [h7, List.mem_singleton] at hit
      subst hit
      exact ⟨rfl, Or.inl ⟨rfl, h5, h6⟩⟩
    · obtain ⟨ts, hts, hit⟩ := List.mem_flatMap.mp hit
      rcases nbrItemF_ok sys b (h2 ts hts) with ⟨_, h4⟩ | ⟨m, h4, h5, h6, h7⟩
      · rw [h4] at hit; cases hit
      · rw [h7, List.mem_singleton] at hit
        subst hit
        have : ts ≠ fs := by rintro rfl; exact hs.noLoop ts hfs hts
        exact ⟨rfl, Or.inr ⟨rfl, by simp only; omega, hts, h5, h6⟩⟩
  refine ⟨?_, ?_, ?_, ?_⟩
  · have hmap : (ls.flatten.flatMap Item.blocks).map Block.key =
        (List.range sys.n).flatMap fun fs => ((okD (rowItemsF sys b fs)).flatMap Item.blocks).map Block.key := by
      rw [hls, ← List.flatMap_def, List.flatMap_assoc, List.map_flatMap]
    have hrow : ∀ fs, fs < sys.n → ∀ k ∈ ((okD (rowItemsF sys b fs)).flatMap Item.blocks).map Block.key, min k.1 k.2 = fs := by
      intro fs hfs k hk
      obtain ⟨x, hx, rfl⟩ := List.mem_map.mp hk
      obtain ⟨it, hit, hx⟩ := List.mem_flatMap.mp hx
      obtain ⟨g1, g2⟩ := hitem fs hfs it hit
      rcases g2 with ⟨g2, _, _⟩ | ⟨g2, g3, _⟩
      · rw [g2] at hx
        simp only [Item.blocks, Bool.false_eq_true, if_false, List.mem_singleton] at hx
        subst hx
        simp [Block.key]
      · simp only [Item.blocks, g2, if_true, List.mem_cons, List.not_mem_nil, or_false] at hx
        rcases hx with rfl | rfl <;> (simp only [Block.key, g1]; omega)
    rw [hmap, List.nodup_flatMap]
    constructor
    · intro fs hfs
      have hfs := List.mem_range.mp hfs
      obtain ⟨h1, h2, h3⟩ := rowItemsF_ok sys b (hok fs (List.mem_range.mpr hfs))
      obtain ⟨m, h5, h6, h7⟩ := diagItemF_ok b h1
      have hn : ∀ ts ∈ sys.nbrs fs, ((okD (nbrItemF sys b fs ts)).flatMap Item.blocks).map Block.key =
          if fs < ts then [(ts, fs), (fs, ts)] else [] := by
        intro ts hts
        have hne : ts ≠ fs := by rintro rfl; exact hs.noLoop ts hfs hts
        rcases nbrItemF_ok sys b (h2 ts hts) with ⟨g4, g5⟩ | ⟨m', g4, g5, g6, g7⟩
        · rw [g5, if_neg (by omega)]; rfl
        · rw [g7, if_pos (by omega)]
          simp [Item.blocks, Block.key]
      have e : (((sys.nbrs fs).flatMap fun ts => okD (nbrItemF sys b fs ts)).flatMap Item.blocks).map Block.key =
          (sys.nbrs fs).flatMap fun ts => if fs < ts then [(ts, fs), (fs, ts)] else [] := by
        rw [List.flatMap_assoc, List.map_flatMap]; exact List.flatMap_congr hn
      rw [h3, h7, List.flatMap_append, List.map_append, e]
      simp only [List.flatMap_cons, List.flatMap_nil, List.append_nil, Item.blocks, Bool.false_eq_true, if_false,
        List.map_cons, List.map_nil, Block.key, List.singleton_append, List.nodup_cons]
      constructor
      · intro hm
        obtain ⟨ts, hts, hk⟩ := List.mem_flatMap.mp hm
        split at hk
        · simp only [List.mem_cons, Prod.mk.injEq, List.not_mem_nil, or_false] at hk
          omega
        · cases hk
      · rw [List.nodup_flatMap]
        constructor
        · intro ts hts
          split
          · simp only [List.nodup_cons, List.mem_cons, Prod.mk.injEq, List.not_mem_nil, or_false, not_false_eq_true,
              List.nodup_nil, and_true]
            omega
          · exact List.nodup_nil
        · refine List.Pairwise.imp ?_ (hs.nodup fs hfs)
          intro ts ts' hne
          simp only [Function.onFun]
          intro x hx hx'
          split at hx
          · split at hx'
            · simp only [List.mem_cons, List.not_mem_nil, or_false] at hx hx'
              rcases hx with rfl | rfl <;> simp only [Prod.mk.injEq] at hx' <;> omega
            · cases hx'
          · cases hx
    · refine List.Pairwise.imp_of_mem ?_ (List.nodup_range (n := sys.n))
      intro fs fs' hfs hfs' hne
      simp only [Function.onFun]
      intro x hx hx'
      exact hne ((hrow fs (List.mem_range.mp hfs) x hx).symm.trans (hrow fs' (List.mem_range.mp hfs') x hx'))
  · intro s hsn
    obtain ⟨h1, h2, h3⟩ := rowItemsF_ok sys b (hok s (List.mem_range.mpr hsn))
    obtain ⟨m, h5, h6, h7⟩ := diagItemF_ok b h1
    refine ⟨m, h5, h6, List.mem_flatMap.mpr ⟨⟨s, s, m, false⟩, (hmemI _).mpr ⟨s, hsn, ?_⟩, by simp [Item.blocks]⟩⟩
    rw [h3, h7]; simp
  · intro ts fs hlt hfs hts
    obtain ⟨h1, h2, h3⟩ := rowItemsF_ok sys b (hok fs (List.mem_range.mpr hfs))
    rcases nbrItemF_ok sys b (h2 ts hts) with ⟨g4, g5⟩ | ⟨m, g4, g5, g6, g7⟩
    · omega
    · have hit : (⟨ts, fs, m, true⟩ : Item K) ∈ ls.flatten := (hmemI _).mpr ⟨fs, hfs, by
        rw [h3]
        exact List.mem_append_right _ (List.mem_flatMap.mpr ⟨ts, hts, by rw [g7]; simp⟩)⟩
      exact ⟨m, g5, g6, List.mem_flatMap.mpr ⟨_, hit, by simp [Item.blocks]⟩, List.mem_flatMap.mpr ⟨_, hit, by simp [Item.blocks]⟩⟩
  · intro x hx
    obtain ⟨it, hit, hx⟩ := List.mem_flatMap.mp hx
    obtain ⟨fs, hfs, hit⟩ := (hmemI it).mp hit
    obtain ⟨g1, g2⟩ := hitem fs hfs it hit
    rcases g2 with ⟨g2, g3, g4⟩ | ⟨g2, g3, g4, g5, g6⟩
    · rw [g2] at hx
      simp only [Item.blocks, Bool.false_eq_true, if_false, List.mem_singleton] at hx
      subst hx
      exact Or.inl ⟨rfl, hfs, g3, g4⟩
    · simp only [Item.blocks, g2, if_true, List.mem_cons, List.not_mem_nil, or_false] at hx
      rcases hx with rfl | rfl
      · simp only [g1]
        exact Or.inr (Or.inl ⟨g3, hfs, g4, g5, g6⟩)
      · simp only [g1]
        exact Or.inr (Or.inr ⟨g3, hfs, g4, it.h, g5, rfl, g6⟩)

end Kwant.System
