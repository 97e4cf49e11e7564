import Verif.Spec.Orography
import Verif.Lemmas.NpInterp
import Verif.Lemmas.Rhs
import Verif.Props.RunPhysics

/-!
# Orographic forcing: C56 – C59
-/

namespace Barotropic
open BModel

variable {g : Grid ℝ} {S : g.Sph}

/-! ## C56 cache -/

/-- Orography as function of the number of gridpoints -/
noncomputable def orographyOf (nlat nlon : ℕ) : OrogKind → Except PyErr (GridField nlat nlon)
  | .gridded nlon' nlat' h w lon lat o =>
    if w = 0 ∨ h = 0 then .error .valueError
    else if e : nlat' = h then
      if e' : nlon' = w then
        .ok fun j i => interp lon (fun i' => interp (fun k => -lat k) (fun j' => o (Fin.cast e j') (Fin.cast e' i'))
          (-linspace 90 (-90) nlat j)) (linspaceOpen 0 360 nlon i)
      else .error .valueError
    else .error .valueError
  | .gaussian height clon clat slon slat =>
    .ok fun j i => OrogKind.gaussianHeight height clon clat slon slat (linspaceOpen 0 360 nlon i) (linspace 90 (-90) nlat j)
  | .sine height clat slat k =>
    .ok fun j i => OrogKind.sineHeight height clat slat k (deg2rad (linspaceOpen 0 360 nlon i)) (linspace 90 (-90) nlat j)

theorem orography_eq (k : OrogKind) : k.orography g = orographyOf g.nlat g.nlon k := by
  cases k <;> rfl

/-- The wrapped method as function of what the grid hashes -/
noncomputable def freshOf (o : Orog) (nlat nlon T : ℕ) (S : Spharm nlat nlon T) : Except PyErr (Arr ℝ × Arr ℝ) :=
  match orographyOf nlat nlon o.kind with
  | .error e => .error e
  | .ok h => .ok (.d2 _ _ (S.getgrad (S.grdtospec h)).1, .d2 _ _ (S.getgrad (S.grdtospec h)).2)

theorem fresh_eq (H : RhsHeap) (key : ℕ × ℕ) :
    H.fresh key = freshOf (H.orog key.1) (H.grid key.2).nlat (H.grid key.2).nlon (H.grid key.2).ntrunc (H.sph key.2) := by
  unfold RhsHeap.fresh Orog.gradient freshOf
  rw [orography_eq]
  cases orographyOf (H.grid key.2).nlat (H.grid key.2).nlon (H.orog key.1).kind <;> rfl

theorem fresh_congr (H : RhsHeap) (hH : H.Standard) (t i j : ℕ) (h : (H.grid i).hashKey = (H.grid j).hashKey) :
    H.fresh (t, i) = H.fresh (t, j) := by
  obtain ⟨mk, hmk⟩ := hH
  rw [fresh_eq, fresh_eq, hmk, hmk]
  simp only [Grid.hashKey, Grid.shape, Prod.mk.injEq] at h
  obtain ⟨⟨h1, h2⟩, h3, _, h4⟩ := h
  dsimp only
  rw [h1, h2, h3, h4]

/-- All entries hold what the method returned for their key. -/
def GradCacheInv (H : RhsHeap) (c : LruCache) : Prop := ∀ e ∈ c.entries, H.fresh (e.term, e.grid) = .ok e.value

theorem cachedGradient_inv (H : RhsHeap) (hash : RhsHeap.KeyHash) (key : ℕ × ℕ) (c : LruCache) (hc : GradCacheInv H c) :
    GradCacheInv H (H.cachedGradient hash key c).2 := by
  unfold RhsHeap.cachedGradient
  cases hf : c.entries.find? fun e => decide (H.KeyMatch hash (e.term, e.grid) key) with
  | some e =>
    intro e' he'
    rcases List.mem_append.mp he' with h | h
    · exact hc e' (List.mem_of_mem_eraseP h)
    · rw [List.mem_singleton.mp h]; exact hc e (List.mem_of_find?_eq_some hf)
  | none =>
    dsimp only
    cases hv : H.fresh key with
    | error err => exact hc
    | ok v =>
      intro e' he'
      rcases List.mem_append.mp he' with h | h
      · refine hc e' ?_
        split_ifs at h
        · exact List.mem_of_mem_drop h
        · exact h
      · rw [List.mem_singleton.mp h]; exact hv

theorem cachedGradient_value (H : RhsHeap) (hash : RhsHeap.KeyHash) (key : ℕ × ℕ) (c : LruCache) (hc : GradCacheInv H c) :
    (H.cachedGradient hash key c).1 = H.fresh key ∨
    ∃ i, (H.grid i).eq (H.grid key.2) ∧ hash key.1 (H.grid i).hashKey = hash key.1 (H.grid key.2).hashKey ∧
      (H.cachedGradient hash key c).1 = H.fresh (key.1, i) := by
  unfold RhsHeap.cachedGradient
  cases hf : c.entries.find? fun e => decide (H.KeyMatch hash (e.term, e.grid) key) with
  | some e =>
    have h1 := List.find?_some hf
    simp only [decide_eq_true_eq] at h1
    obtain ⟨ha, hb, hd⟩ := h1
    dsimp only at ha hb hd
    have h2 := hc e (List.mem_of_find?_eq_some hf)
    rw [hb] at ha h2
    rcases hd with hd | hd
    · left; rw [hd] at h2; exact h2.symm
    · exact .inr ⟨e.grid, hd, ha, h2.symm⟩
  | none =>
    dsimp only
    cases hv : H.fresh key with
    | error err => exact .inl rfl
    | ok v => exact .inl rfl

theorem calls_inv (H : RhsHeap) (hash : RhsHeap.KeyHash) (ks : List (ℕ × ℕ)) (c : LruCache) (hc : GradCacheInv H c) :
    GradCacheInv H (H.calls hash ks c).2 := by
  induction ks generalizing c with
  | nil => exact hc
  | cons k ks ih => exact ih _ (cachedGradient_inv H hash k c hc)

/-- C56: for every history of evaluations of any number of terms on any number of grids, the cached method returns what it
would compute afresh, if hashes of different but equal-comparing grids do not collide. -/
theorem C56_transparent (H : RhsHeap) (hH : H.Standard) (hash : RhsHeap.KeyHash) (hcol : H.NoCollision hash)
    (ks : List (ℕ × ℕ)) : (H.calls hash ks ⟨[], 0⟩).1 = ks.map H.fresh := by
  suffices h : ∀ c, GradCacheInv H c → (H.calls hash ks c).1 = ks.map H.fresh from h _ (by intro e he; simp at he)
  induction ks with
  | nil => intro c _; rfl
  | cons k ks ih =>
    intro c hc
    have h1 : (H.cachedGradient hash k c).1 = H.fresh k := by
      rcases cachedGradient_value H hash k c hc with h | ⟨i, h1, h2, h3⟩
      · exact h
      · rw [h3]; exact fresh_congr H hH k.1 i k.2 (hcol k.1 i k.2 h1 h2)
    have h2 := ih _ (cachedGradient_inv H hash k c hc)
    simp only [RhsHeap.calls, List.map_cons, h1, h2]

/-- C56, whatever the hash function: the result is the fresh one of the same term on the requested grid or on a grid that
compares equal to it (same shape and truncation, radius and rotation rate within the tolerance of `np.isclose`). In
particular no term ever receives the gradient of another term. -/
theorem C56_any_hash (H : RhsHeap) (hash : RhsHeap.KeyHash) (ks : List (ℕ × ℕ)) (key : ℕ × ℕ) :
    ∃ i, (i = key.2 ∨ (H.grid i).eq (H.grid key.2)) ∧
      (H.cachedGradient hash key (H.calls hash ks ⟨[], 0⟩).2).1 = H.fresh (key.1, i) := by
  have hc := calls_inv H hash ks ⟨[], 0⟩ (by intro e he; simp at he)
  rcases cachedGradient_value H hash key _ hc with h | ⟨i, h1, _, h3⟩
  · exact ⟨key.2, .inl rfl, h⟩
  · exact ⟨i, .inr h1, h3⟩

/-- An entry with at most `n` entries used after it -/
def RecentlyUsed (H : RhsHeap) (hash : RhsHeap.KeyHash) (key : ℕ × ℕ) (n : ℕ) (l : List CacheEntry) : Prop :=
  ∃ pre e post, l = pre ++ e :: post ∧ H.KeyMatch hash (e.term, e.grid) key ∧ post.length ≤ n

theorem recentlyUsed_call (H : RhsHeap) (hash : RhsHeap.KeyHash) (key k : ℕ × ℕ) (n : ℕ) (hn : n < 7) (c : LruCache)
    (h : RecentlyUsed H hash key n c.entries) : RecentlyUsed H hash key (n + 1) (H.cachedGradient hash k c).2.entries := by
  obtain ⟨pre, e, post, hl, hm, hp⟩ := h
  unfold RhsHeap.cachedGradient
  cases hf : c.entries.find? fun e => decide (H.KeyMatch hash (e.term, e.grid) k) with
  | some e' =>
    dsimp only
    rw [hl, List.eraseP_append]
    split_ifs with ha
    · exact ⟨_, e, post ++ [e'], by simp; rfl, hm, by simp; omega⟩
    · by_cases hk : H.KeyMatch hash (e.term, e.grid) k
      · have hpre : pre.find? (fun e => decide (H.KeyMatch hash (e.term, e.grid) k)) = none := by
          rw [List.find?_eq_none]
          intro x hx hx2
          exact ha (List.any_eq_true.mpr ⟨x, hx, hx2⟩)
        rw [hl, List.find?_append, hpre, Option.none_or, List.find?_cons_of_pos (by simpa using hk)] at hf
        cases hf
        rw [List.eraseP_cons_of_pos (by simpa using hk)]
        exact ⟨pre ++ post, e, [], by simp, hm, by simp⟩
      · rw [List.eraseP_cons_of_neg (by simpa using hk)]
        refine ⟨pre, e, post.eraseP _ ++ [e'], by simp; rfl, hm, ?_⟩
        have := (List.eraseP_sublist (p := fun e => decide (H.KeyMatch hash (e.term, e.grid) k)) (l := post)).length_le
        simp only [List.length_append, List.length_singleton]
        omega
  | none =>
    dsimp only
    cases hv : H.fresh k with
    | error err => exact ⟨pre, e, post, hl, hm, by omega⟩
    | ok v =>
      dsimp only
      split_ifs with h8
      · cases pre with
        | nil =>
          rw [hl] at h8
          simp at h8
          omega
        | cons x pre => exact ⟨pre, e, post ++ [⟨k.1, k.2, v⟩], by rw [hl]; simp, hm, by simp; omega⟩
      · exact ⟨pre, e, post ++ [⟨k.1, k.2, v⟩], by rw [hl]; simp, hm, by simp; omega⟩

/-- C56: the cache retains what was used recently: after a successful call and at most 7 calls with whatever other terms and
grids, the call does not evaluate the method again. -/
theorem C56_retained (H : RhsHeap) (hash : RhsHeap.KeyHash) (key : ℕ × ℕ) (c : LruCache) (v : Arr ℝ × Arr ℝ)
    (h : (H.cachedGradient hash key c).1 = .ok v) (ks : List (ℕ × ℕ)) (hk : ks.length ≤ 7) :
    (H.calls hash (key :: ks ++ [key]) c).2.misses = (H.calls hash (key :: ks) c).2.misses := by
  have h0 : RecentlyUsed H hash key 0 (H.cachedGradient hash key c).2.entries := by
    unfold RhsHeap.cachedGradient at h ⊢
    cases hf : c.entries.find? fun e => decide (H.KeyMatch hash (e.term, e.grid) key) with
    | some e =>
      have h1 := List.find?_some hf
      exact ⟨_, e, [], rfl, by simpa using h1, le_rfl⟩
    | none =>
      simp only [hf] at h
      dsimp only
      cases hv : H.fresh key with
      | error err => rw [hv] at h; cases h
      | ok v => exact ⟨_, ⟨key.1, key.2, v⟩, [], rfl, ⟨rfl, rfl, .inl rfl⟩, le_rfl⟩
  change (H.calls hash (ks ++ [key]) (H.cachedGradient hash key c).2).2.misses = (H.calls hash ks (H.cachedGradient hash key c).2).2.misses
  generalize (H.cachedGradient hash key c).2 = c' at h0
  have key1 : ∀ (ks : List (ℕ × ℕ)) (c : LruCache) (n : ℕ), n + ks.length ≤ 7 → RecentlyUsed H hash key n c.entries →
      (H.calls hash (ks ++ [key]) c).2.misses = (H.calls hash ks c).2.misses := by
    intro ks
    induction ks with
    | nil =>
      rintro c n - ⟨pre, e, post, hl, hm, -⟩
      change (H.cachedGradient hash key c).2.misses = c.misses
      unfold RhsHeap.cachedGradient
      cases hf : c.entries.find? fun e => decide (H.KeyMatch hash (e.term, e.grid) key) with
      | some e' => rfl
      | none => exact absurd (by simpa using hm) (List.find?_eq_none.mp hf e (by rw [hl]; simp))
    | cons k ks ih =>
      intro c n hn hr
      rw [List.length_cons] at hn
      exact ih _ (n + 1) (by omega) (recentlyUsed_call H hash key k n (by omega) c hr)
  exact key1 ks c' 0 (by omega) h0

/-- The cache is a cache: a repeated call does not evaluate the method again, and there are never more than 8 entries. -/
theorem C56_hit (H : RhsHeap) (hash : RhsHeap.KeyHash) (ks : List (ℕ × ℕ)) (key : ℕ × ℕ) (v : Arr ℝ × Arr ℝ)
    (h : (H.cachedGradient hash key (H.calls hash ks ⟨[], 0⟩).2).1 = .ok v) :
    (H.calls hash (ks ++ [key, key]) ⟨[], 0⟩).2.misses = (H.calls hash (ks ++ [key]) ⟨[], 0⟩).2.misses ∧
    (H.calls hash ks ⟨[], 0⟩).2.entries.length ≤ 8 := by
  have happ : ∀ (ks ks' : List (ℕ × ℕ)) (c : LruCache), (H.calls hash (ks ++ ks') c).2 = (H.calls hash ks' (H.calls hash ks c).2).2 := by
    intro ks
    induction ks with
    | nil => intro ks' c; rfl
    | cons k ks ih => intro ks' c; exact ih ks' _
  constructor
  · rw [happ, happ]
    set c := (H.calls hash ks ⟨[], 0⟩).2 with hc
    change (H.cachedGradient hash key (H.cachedGradient hash key c).2).2.misses = (H.cachedGradient hash key c).2.misses
    have hex : ∃ e ∈ (H.cachedGradient hash key c).2.entries, H.KeyMatch hash (e.term, e.grid) key := by
      unfold RhsHeap.cachedGradient at h ⊢
      cases hf : c.entries.find? fun e => decide (H.KeyMatch hash (e.term, e.grid) key) with
      | some e =>
        have h1 := List.find?_some hf
        exact ⟨e, by simp, by simpa using h1⟩
      | none =>
        simp only [hf] at h
        dsimp only
        cases hv : H.fresh key with
        | error err => rw [hv] at h; cases h
        | ok v => exact ⟨⟨key.1, key.2, v⟩, by simp, rfl, rfl, .inl rfl⟩
    obtain ⟨e, he, hm⟩ := hex
    generalize (H.cachedGradient hash key c).2 = c' at he ⊢
    unfold RhsHeap.cachedGradient
    cases hf : c'.entries.find? fun e => decide (H.KeyMatch hash (e.term, e.grid) key) with
    | some e' => rfl
    | none => exact absurd (by simpa using hm) (List.find?_eq_none.mp hf e he)
  · have hlen : ∀ (ks : List (ℕ × ℕ)) (c : LruCache), c.entries.length ≤ 8 → (H.calls hash ks c).2.entries.length ≤ 8 := by
      intro ks
      induction ks with
      | nil => intro c hc; exact hc
      | cons k ks ih =>
        intro c hc
        refine ih _ ?_
        unfold RhsHeap.cachedGradient
        cases hf : c.entries.find? fun e => decide (H.KeyMatch hash (e.term, e.grid) k) with
        | some e =>
          have h1 := List.find?_some hf
          have := List.length_eraseP_of_mem (p := fun e => decide (H.KeyMatch hash (e.term, e.grid) k))
            (List.mem_of_find?_eq_some hf) h1
          simp only [List.length_append, List.length_singleton, this]
          have := List.length_pos_of_mem (List.mem_of_find?_eq_some hf)
          omega
        | none =>
          dsimp only
          cases hv : H.fresh k with
          | error err => exact hc
          | ok v =>
            simp only [List.length_append, List.length_singleton]
            split_ifs with h8
            · simp only [List.length_drop]; omega
            · omega
    exact hlen ks _ (by simp)

/-! ### An example heap -/

/-- the zonal example transform for all sizes -/
noncomputable def zonalMk (nlat nlon T : ℕ) (r : ℝ) : Spharm nlat nlon T :=
  if h : 1 ≤ T ∧ 3 ≤ nlat then zonalSph (fun j => deg2rad (linspace 90 (-90) nlat j)) r h.1 h.2
  else ⟨fun _ => 0, fun _ => 0, fun _ _ => (0, 0), fun _ _ => (0, 0), fun _ => (0, 0)⟩

/-- A heap with two grids of slightly different radius and a mountain at the North Pole -/
noncomputable def heapExample : RhsHeap where
  grid := fun i => if i = 0 then grid30 else { grid30 with rsphere := 1 + 1 / 10 ^ 6 }
  sph := fun i => zonalMk _ _ _ (if i = 0 then grid30 else { grid30 with rsphere := 1 + 1 / 10 ^ 6 }).rsphere
  orog := fun _ => ⟨.gridded 1 2 2 1 (fun _ => 0) (fun k => if k = 0 then 90 else -90) (fun j _ => if j = 0 then 1 else 0), 1, .act 1, none⟩

theorem heapExample_standard : heapExample.Standard := ⟨zonalMk, fun _ => rfl⟩

/-- Non-vacuity of C56: with this hash function (of the radius) the hypotheses hold. -/
example : heapExample.Standard ∧ heapExample.NoCollision (fun _ k => if k.2.1 = 1 then 0 else 1) := by
  refine ⟨heapExample_standard, fun t i j _ h => ?_⟩
  simp only [heapExample, Grid.hashKey] at h ⊢
  by_cases hi : i = 0 <;> by_cases hj : j = 0 <;> simp [hi, hj, grid30] at h ⊢

/-- Non-vacuity of `C56_retained`: the first call succeeds. -/
example (hash : RhsHeap.KeyHash) : ∃ v, (heapExample.cachedGradient hash (0, 0) ⟨[], 0⟩).1 = .ok v := ⟨_, rfl⟩

theorem interp_one (xp fp : Fin 1 → ℝ) (x : ℝ) : interp xp fp x = fp 0 := by
  rw [finRange_cons]
  split_ifs <;> rfl

/-- entry of a two-dimensional array -/
def Arr.entry (j i : ℕ) : Arr ℝ → ℝ
  | .d2 h w v => if e : j < h ∧ i < w then v ⟨j, e.1⟩ ⟨i, e.2⟩ else 0
  | _ => 0

theorem heapExample_fresh (i : ℕ) : ∃ v, heapExample.fresh (0, i) = .ok v ∧
    v.2.entry 1 0 = 1 / (heapExample.grid i).rsphere * (1 / 2) * Real.cos (deg2rad (linspace 90 (-90) 7 1)) := by
  have hlat : (heapExample.grid i).nlat = 7 := by
    by_cases h : i = 0
    · simp only [heapExample, h, if_true]; exact grid30_nlat
    · simp only [heapExample, h, if_false]; exact grid30_nlat
  have hlon : (heapExample.grid i).nlon = 12 := by
    by_cases h : i = 0
    · simp only [heapExample, h, if_true]; exact grid30_nlon
    · simp only [heapExample, h, if_false]; exact grid30_nlon
  have hT : (heapExample.grid i).ntrunc = 2 := by
    by_cases h : i = 0
    · simp only [heapExample, h, if_true]; rfl
    · simp only [heapExample, h, if_false]; rfl
  have hsph : heapExample.sph i = zonalMk (heapExample.grid i).nlat (heapExample.grid i).nlon (heapExample.grid i).ntrunc
    (heapExample.grid i).rsphere := rfl
  rw [fresh_eq, hsph]
  dsimp only
  rw [hlat, hlon, hT]
  generalize (heapExample.grid i).rsphere = r
  have hmono : StrictMono fun k : Fin 2 => -(if k = 0 then (90 : ℝ) else -90) := by
    intro a b hab
    have ha : a = 0 := by omega
    have hb : b = 1 := by omega
    subst ha hb; norm_num
  have ho : orographyOf 7 12 (heapExample.orog 0).kind = .ok fun j i => interp (fun _ : Fin 1 => (0 : ℝ)) (fun _ =>
      interp (fun k : Fin 2 => -(if k = 0 then (90 : ℝ) else -90)) (fun k => if k = 0 then 1 else 0)
        (-linspace 90 (-90) 7 j)) (linspaceOpen 0 360 12 i) := by
    simp only [heapExample, orographyOf]
    rw [if_neg (by norm_num)]
    simp
  have h0 : interp (fun k : Fin 2 => -(if k = 0 then (90 : ℝ) else -90)) (fun k => if k = 0 then 1 else 0)
      (-linspace 90 (-90) 7 0) = 1 := by
    have := interp_hit hmono (fun k => if k = 0 then 1 else 0) 0
    simp only [if_true] at this
    have e : -linspace (90 : ℝ) (-90) 7 0 = -90 := by norm_num [linspace]
    rw [e]; exact this
  have h6 : interp (fun k : Fin 2 => -(if k = 0 then (90 : ℝ) else -90)) (fun k => if k = 0 then 1 else 0)
      (-linspace 90 (-90) 7 6) = 0 := by
    have := interp_hit hmono (fun k => if k = 0 then 1 else 0) 1
    simp only [one_ne_zero, if_false] at this
    have e : -linspace (90 : ℝ) (-90) 7 6 = - -90 := by norm_num [linspace]
    rw [e]; exact this
  unfold freshOf
  rw [ho]
  refine ⟨_, rfl, ?_⟩
  simp only [Arr.entry]
  rw [dif_pos (by norm_num)]
  unfold zonalMk
  rw [dif_pos (by norm_num)]
  simp only [zonalSph, mk2_k1, interp_one, zmean_const (show 0 < 12 by norm_num)]
  norm_num [h0, h6]

/-- The hypothesis on hashes is needed: if the hashes of two grids with slightly different radii collide, the second one gets
the gradient of the first. -/
theorem C56_collision : (heapExample.calls (fun _ _ => 0) [(0, 0), (0, 1)] ⟨[], 0⟩).1 ≠ [(0, 0), (0, 1)].map heapExample.fresh := by
  obtain ⟨v0, h0, e0⟩ := heapExample_fresh 0
  obtain ⟨v1, h1, e1⟩ := heapExample_fresh 1
  have hr0 : (heapExample.grid 0).rsphere = 1 := rfl
  have hr1 : (heapExample.grid 1).rsphere = 1 + 1 / 10 ^ 6 := rfl
  have hc : 0 < Real.cos (deg2rad (linspace 90 (-90) 7 1)) := by
    refine Real.cos_pos_of_mem_Ioo ⟨?_, ?_⟩ <;> norm_num [deg2rad, linspace] <;> linarith [Real.pi_pos]
  have hne : v0 ≠ v1 := by
    rintro rfl
    rw [e0, hr0, hr1] at e1
    have h2 : (1 / 1 * (1 / 2) : ℝ) = 1 / (1 + 1 / 10 ^ 6) * (1 / 2) := mul_right_cancel₀ hc.ne' e1
    norm_num at h2
  have hmatch : heapExample.KeyMatch (fun _ _ => 0) (0, 0) (0, 1) := by
    refine ⟨rfl, rfl, .inr ⟨rfl, ?_, ?_, rfl⟩⟩
    · change isclose (heapExample.grid 0).rsphere (heapExample.grid 1).rsphere
      rw [hr0, hr1]; unfold isclose; norm_num [abs_of_pos, abs_of_neg]
    · change isclose (1 : ℝ) 1
      unfold isclose; norm_num
  intro h
  have hcall1 : heapExample.cachedGradient (fun _ _ => 0) (0, 0) ⟨[], 0⟩ = (.ok v0, ⟨[⟨0, 0, v0⟩], 1⟩) := by
    unfold RhsHeap.cachedGradient
    simp [h0]
  have hcall2 : (heapExample.cachedGradient (fun _ _ => 0) (0, 1) ⟨[⟨0, 0, v0⟩], 1⟩).1 = .ok v0 := by
    unfold RhsHeap.cachedGradient
    simp [hmatch]
  simp only [RhsHeap.calls, hcall1, hcall2, List.map_cons, List.map_nil, h0, h1, List.cons.injEq, Except.ok.injEq,
    true_and, and_true] at h
  exact hne h

/-! ## C57 gridded orography -/

/-- C57: accepted shapes; everything else raises ValueError. -/
theorem C57_shapes {nlon nlat h w : ℕ} (lon : Fin nlon → ℝ) (lat : Fin nlat → ℝ) (o : Fin h → Fin w → ℝ) :
    ((∃ f, (OrogKind.gridded nlon nlat h w lon lat o).orography g = .ok f) ↔ nlat = h ∧ nlon = w ∧ 0 < h ∧ 0 < w) ∧
    (¬ (nlat = h ∧ nlon = w ∧ 0 < h ∧ 0 < w) →
      (OrogKind.gridded nlon nlat h w lon lat o).orography g = .error .valueError) := by
  by_cases h0 : w = 0 ∨ h = 0
  · have : (OrogKind.gridded nlon nlat h w lon lat o).orography g = .error .valueError := if_pos h0
    rw [this]
    refine ⟨⟨fun ⟨f, hf⟩ => (by cases hf), fun h => by omega⟩, fun _ => rfl⟩
  · by_cases h1 : nlat = h
    · by_cases h2 : nlon = w
      · subst h1 h2
        have : ∃ f, (OrogKind.gridded nlon nlat nlat nlon lon lat o).orography g = .ok f := by
          refine ⟨fun j i => interp lon (fun i' => interp (fun k => -lat k) (fun j' => o j' i') (-g.lat j)) (g.lon i),
            (if_neg h0).trans ?_⟩
          rw [dif_pos rfl, dif_pos rfl]
          rfl
        exact ⟨⟨fun _ => ⟨rfl, rfl, by omega, by omega⟩, fun _ => this⟩, fun h => absurd ⟨rfl, rfl, by omega, by omega⟩ h⟩
      · have : (OrogKind.gridded nlon nlat h w lon lat o).orography g = .error .valueError := by
          refine (if_neg h0).trans ?_
          rw [dif_pos h1, dif_neg h2]
        rw [this]
        refine ⟨⟨fun ⟨f, hf⟩ => (by cases hf), fun h => by omega⟩, fun _ => rfl⟩
    · have : (OrogKind.gridded nlon nlat h w lon lat o).orography g = .error .valueError := by
        refine (if_neg h0).trans ?_
        rw [dif_neg h1]
      rw [this]
      refine ⟨⟨fun ⟨f, hf⟩ => (by cases hf), fun h => by omega⟩, fun _ => rfl⟩

theorem gridded_ok {nlon nlat : ℕ} {lon : Fin nlon → ℝ} {lat : Fin nlat → ℝ} {o : Fin nlat → Fin nlon → ℝ} {f : g.Fld}
    (hf : (OrogKind.gridded nlon nlat nlat nlon lon lat o).orography g = .ok f) : 0 < nlat ∧ 0 < nlon ∧
    ∀ j i, f j i = interp lon (fun i' => interp (fun k => -lat k) (fun j' => o j' i') (-g.lat j)) (g.lon i) := by
  obtain ⟨_, _, h1, h2⟩ := (C57_shapes (g := g) lon lat o).1.mp ⟨f, hf⟩
  refine ⟨h1, h2, fun j i => ?_⟩
  have : (OrogKind.gridded nlon nlat nlat nlon lon lat o).orography g =
      .ok fun j i => interp lon (fun i' => interp (fun k => -lat k) (fun j' => o j' i') (-g.lat j)) (g.lon i) := by
    refine (if_neg (by omega)).trans ?_
    rw [dif_pos rfl, dif_pos rfl]
    rfl
  rw [this] at hf
  cases hf
  rfl

theorem StrictAnti.neg' {n : ℕ} {lat : Fin n → ℝ} (h : StrictAnti lat) : StrictMono fun k => -lat k :=
  fun _ _ hab => neg_lt_neg (h hab)

/-- C57: the interpolated heights lie between bounds of the given heights, in particular constants are preserved. (`np.interp`
requires sorted coordinates, the model of it describes numpy for these only.) -/
theorem C57_bounds {nlon nlat : ℕ} (lon : Fin nlon → ℝ) (lat : Fin nlat → ℝ) (o : Fin nlat → Fin nlon → ℝ) (f : g.Fld)
    (hf : (OrogKind.gridded nlon nlat nlat nlon lon lat o).orography g = .ok f) (m M : ℝ) (hm : ∀ j i, m ≤ o j i ∧ o j i ≤ M)
    (j : Fin g.nlat) (i : Fin g.nlon) : m ≤ f j i ∧ f j i ≤ M := by
  obtain ⟨h1, h2, h⟩ := gridded_ok hf
  rw [h]
  exact ⟨interp_ge h2 _ _ _ fun i' => interp_ge h1 _ _ _ fun j' => (hm j' i').1,
    interp_le h2 _ _ _ fun i' => interp_le h1 _ _ _ fun j' => (hm j' i').2⟩

/-- C57: constants are preserved. -/
theorem C57_const {nlon nlat : ℕ} (lon : Fin nlon → ℝ) (lat : Fin nlat → ℝ) (c : ℝ) (f : g.Fld)
    (hf : (OrogKind.gridded nlon nlat nlat nlon lon lat fun _ _ => c).orography g = .ok f) : f = fun _ _ => c := by
  funext j i
  have := C57_bounds lon lat _ f hf c c (fun _ _ => ⟨le_rfl, le_rfl⟩) j i
  exact le_antisymm this.2 this.1

/-- C57: exact at coinciding gridpoints. -/
theorem C57_exact {nlon nlat : ℕ} (lon : Fin nlon → ℝ) (lat : Fin nlat → ℝ) (hlon : StrictMono lon) (hlat : StrictAnti lat)
    (o : Fin nlat → Fin nlon → ℝ) (f : g.Fld)
    (hf : (OrogKind.gridded nlon nlat nlat nlon lon lat o).orography g = .ok f) (j : Fin g.nlat) (i : Fin g.nlon)
    (j' : Fin nlat) (i' : Fin nlon) (hj : lat j' = g.lat j) (hi : lon i' = g.lon i) : f j i = o j' i' := by
  obtain ⟨_, _, h⟩ := gridded_ok hf
  rw [h, ← hj, ← hi, interp_hit hlon]
  exact interp_hit (StrictAnti.neg' hlat) (fun j' => o j' i') j'

/-- C57: bilinear in between. -/
theorem C57_bilinear {nlon nlat : ℕ} (lon : Fin nlon → ℝ) (lat : Fin nlat → ℝ) (hlon : StrictMono lon) (hlat : StrictAnti lat)
    (o : Fin nlat → Fin nlon → ℝ) (f : g.Fld)
    (hf : (OrogKind.gridded nlon nlat nlat nlon lon lat o).orography g = .ok f) (j : Fin g.nlat) (i : Fin g.nlon)
    (j0 j1 : Fin nlat) (i0 i1 : Fin nlon) (hjj : j0.val + 1 = j1.val) (hii : i0.val + 1 = i1.val)
    (hj : lat j1 ≤ g.lat j ∧ g.lat j ≤ lat j0) (hi : lon i0 ≤ g.lon i ∧ g.lon i ≤ lon i1) :
    f j i = bilinear (lon i0) (lon i1) (lat j0) (lat j1) (g.lon i) (g.lat j) (o j0 i0) (o j0 i1) (o j1 i0) (o j1 i1) := by
  obtain ⟨_, _, h⟩ := gridded_ok hf
  have hlt : i0 < i1 := by rw [Fin.lt_def]; omega
  have hlt' : j0 < j1 := by rw [Fin.lt_def]; omega
  rw [h, interp_between hlon _ i0 i1 hii _ hi.1 hi.2]
  rw [interp_between (StrictAnti.neg' hlat) (fun j' => o j' i0) j0 j1 hjj _ (neg_le_neg hj.2) (neg_le_neg hj.1),
    interp_between (StrictAnti.neg' hlat) (fun j' => o j' i1) j0 j1 hjj _ (neg_le_neg hj.2) (neg_le_neg hj.1)]
  have h1 : lon i1 - lon i0 ≠ 0 := sub_ne_zero.mpr (hlon hlt).ne'
  have h2 : lat j1 - lat j0 ≠ 0 := sub_ne_zero.mpr (hlat hlt').ne
  have h3 : -lat j1 + lat j0 ≠ 0 := by intro h; apply h2; linarith
  unfold lerp bilinear
  have h4 : lat j0 - lat j1 ≠ 0 := sub_ne_zero.mpr (hlat hlt').ne'
  rw [show -lat j1 - -lat j0 = lat j0 - lat j1 by ring, show -g.lat j - -lat j0 = lat j0 - g.lat j by ring]
  have e : (lon i1 - lon i0) * (lat j1 - lat j0) = -((lon i1 - lon i0) * (lat j0 - lat j1)) := by ring
  rw [e]
  field_simp
  ring

/-- C57: constant continuation beyond the given coordinates (no NaN): here beyond the last given longitude. -/
theorem C57_outside {nlon nlat : ℕ} (lon : Fin (nlon + 1) → ℝ) (lat : Fin nlat → ℝ) (hlon : StrictMono lon)
    (hlat : StrictAnti lat) (o : Fin nlat → Fin (nlon + 1) → ℝ) (f : g.Fld)
    (hf : (OrogKind.gridded (nlon + 1) nlat nlat (nlon + 1) lon lat o).orography g = .ok f) (j : Fin g.nlat) (i : Fin g.nlon)
    (j' : Fin nlat) (hj : lat j' = g.lat j) :
    (lon (Fin.last nlon) ≤ g.lon i → f j i = o j' (Fin.last nlon)) ∧ (g.lon i ≤ lon 0 → f j i = o j' 0) := by
  obtain ⟨_, _, h⟩ := gridded_ok hf
  have e : ∀ i', interp (fun k => -lat k) (fun j' => o j' i') (-g.lat j) = o j' i' := by
    intro i'; rw [← hj]; exact interp_hit (StrictAnti.neg' hlat) (fun j' => o j' i') j'
  refine ⟨fun hi => ?_, fun hi => ?_⟩
  · rw [h, interp_right _ _ hlon _ hi, e]
  · rw [h, interp_left _ _ hlon _ hi, e]

/-- C57: the order in which dimensions are interpolated does not matter. -/
theorem C57_order {nlon nlat : ℕ} (lon : Fin nlon → ℝ) (lat : Fin nlat → ℝ) (o : Fin nlat → Fin nlon → ℝ) (f : g.Fld)
    (hf : (OrogKind.gridded nlon nlat nlat nlon lon lat o).orography g = .ok f) (j : Fin g.nlat) (i : Fin g.nlon) :
    f j i = interp (fun k => -lat k) (fun j' => interp lon (fun i' => o j' i') (g.lon i)) (-g.lat j) := by
  obtain ⟨_, _, h⟩ := gridded_ok hf
  rw [h, interp_comm]

/-- Non-vacuity of C57: a 2×2 orography is accepted on every grid. -/
example : ∃ f, (OrogKind.gridded 2 2 2 2 (fun k => if k = 0 then 0 else 360) (fun k => if k = 0 then 90 else -90)
    (fun j i => j.val + i.val)).orography g = .ok f := (C57_shapes _ _ _).1.mpr ⟨rfl, rfl, by norm_num, by norm_num⟩

/-! ## C58 analytic mountains -/

theorem exp_nonpos_le_one {x : ℝ} (h : x ≤ 0) : 0 < Real.exp x ∧ Real.exp x ≤ 1 :=
  ⟨Real.exp_pos x, Real.exp_le_one_iff.mpr h⟩

theorem gauss_arg {d s : ℝ} : -(1 / 2) * d ^ 2 / s ^ 2 ≤ 0 := by
  apply div_nonpos_of_nonpos_of_nonneg
  · nlinarith [sq_nonneg d]
  · positivity

/-- C58: heights of the Gaussian mountain lie in `[0, height]`, they are positive everywhere, and the maximum is attained
exactly at the centre. -/
theorem C58_gaussian (height clon clat slon slat : ℝ) (hh : 0 < height) (h1 : slon ≠ 0) (h2 : slat ≠ 0) (f : g.Fld)
    (hf : (OrogKind.gaussian height clon clat slon slat).orography g = .ok f) (j : Fin g.nlat) (i : Fin g.nlon) :
    0 < f j i ∧ f j i ≤ height ∧ (f j i = height ↔ g.lon i = clon ∧ g.lat j = clat) := by
  have hv : f j i = OrogKind.gaussianHeight height clon clat slon slat (g.lon i) (g.lat j) := by cases hf; rfl
  rw [hv]
  unfold OrogKind.gaussianHeight
  obtain ⟨a0, a1⟩ := exp_nonpos_le_one (gauss_arg (d := g.lon i - clon) (s := slon))
  obtain ⟨b0, b1⟩ := exp_nonpos_le_one (gauss_arg (d := g.lat j - clat) (s := slat))
  set a := Real.exp (-(1 / 2) * (g.lon i - clon) ^ 2 / slon ^ 2) with ha
  set b := Real.exp (-(1 / 2) * (g.lat j - clat) ^ 2 / slat ^ 2) with hb
  have hab : a * b ≤ 1 := mul_le_one₀ a1 b0.le b1
  refine ⟨by positivity, by rw [mul_assoc]; nlinarith, ?_⟩
  have key : ∀ d s : ℝ, s ≠ 0 → (Real.exp (-(1 / 2) * d ^ 2 / s ^ 2) = 1 ↔ d = 0) := by
    intro d s hs
    rw [Real.exp_eq_one_iff]
    constructor
    · intro h
      have hs2 : s ^ 2 ≠ 0 := pow_ne_zero 2 hs
      rw [div_eq_zero_iff, or_iff_left hs2] at h
      have : d ^ 2 = 0 := by linarith
      exact pow_eq_zero_iff (two_ne_zero) |>.mp this
    · rintro rfl; simp
  constructor
  · intro h
    have h3 : a * b = 1 := by
      have : height * (a * b) = height * 1 := by rw [← mul_assoc, h, mul_one]
      exact mul_left_cancel₀ hh.ne' this
    have ha1 : a = 1 := by nlinarith
    have hb1 : b = 1 := by nlinarith
    exact ⟨sub_eq_zero.mp ((key _ _ h1).mp ha1), sub_eq_zero.mp ((key _ _ h2).mp hb1)⟩
  · rintro ⟨e1, e2⟩
    have ha1 : a = 1 := (key _ _ h1).mpr (sub_eq_zero.mpr e1)
    have hb1 : b = 1 := (key _ _ h2).mpr (sub_eq_zero.mpr e2)
    rw [ha1, hb1]; ring

/-- C58: heights of the sine mountains lie in `[0, height]`; the maximum is attained at the centre latitude where the cosine
is 1 (in particular at 0°E), and valleys reach zero height. -/
theorem C58_sine (height clat slat : ℝ) (k : ℤ) (hh : 0 ≤ height) (f : g.Fld)
    (hf : (OrogKind.sine height clat slat k).orography g = .ok f) (j : Fin g.nlat) (i : Fin g.nlon) :
    0 ≤ f j i ∧ f j i ≤ height ∧ (g.lat j = clat → Real.cos (k * g.lam i) = 1 → f j i = height) ∧
    (Real.cos (k * g.lam i) = -1 → f j i = 0) := by
  have hv : f j i = OrogKind.sineHeight height clat slat k (g.lam i) (g.lat j) := by cases hf; rfl
  rw [hv]
  unfold OrogKind.sineHeight
  obtain ⟨b0, b1⟩ := exp_nonpos_le_one (gauss_arg (d := g.lat j - clat) (s := slat))
  have c0 := Real.neg_one_le_cos (k * g.lam i)
  have c1 := Real.cos_le_one (k * g.lam i)
  have d0 : 0 ≤ 1 / 2 * (1 + Real.cos (k * g.lam i)) := by linarith
  have d1 : 1 / 2 * (1 + Real.cos (k * g.lam i)) ≤ 1 := by linarith
  refine ⟨by positivity, ?_, ?_, ?_⟩
  · rw [mul_assoc]
    exact mul_le_of_le_one_right hh (mul_le_one₀ d1 b0.le b1)
  · intro e1 e2
    rw [e1, e2, sub_self]; norm_num
  · intro e; rw [e]; ring

/-- C58: the sine mountains are periodic in longitude, with `k` crests around the circle. -/
theorem C58_sine_periodic (height clat slat : ℝ) (k : ℤ) (lam lat : ℝ) (n : ℤ) :
    OrogKind.sineHeight height clat slat k (lam + n * (2 * Real.pi)) lat = OrogKind.sineHeight height clat slat k lam lat ∧
    (k ≠ 0 → OrogKind.sineHeight height clat slat k (lam + 2 * Real.pi / k) lat = OrogKind.sineHeight height clat slat k lam lat) := by
  unfold OrogKind.sineHeight
  constructor
  · have e : (k : ℝ) * (lam + n * (2 * Real.pi)) = k * lam + ((k * n : ℤ) : ℝ) * (2 * Real.pi) := by push_cast; ring
    rw [e, Real.cos_add_int_mul_two_pi]
  · intro hk
    have hk' : (k : ℝ) ≠ 0 := by exact_mod_cast hk
    have e : (k : ℝ) * (lam + 2 * Real.pi / k) = k * lam + 2 * Real.pi := by field_simp
    rw [e, Real.cos_add_two_pi]

/-- C58: on the grid, shifting by one wavelength leaves the field unchanged if `k` divides the number of longitudes. -/
theorem C58_sine_rotation (hg : g.Valid) (height clat slat : ℝ) (k d : ℕ) (hd : k * d = g.nlon) (f : g.Fld)
    (hf : (OrogKind.sine height clat slat k).orography g = .ok f) : rotate d f = f := by
  cases hf
  funext j i
  change OrogKind.sineHeight height clat slat k (g.lam ((i.val + d) % g.nlon)) (g.lat j) =
    OrogKind.sineHeight height clat slat k (g.lam i) (g.lat j)
  have hn : (g.nlon : ℝ) ≠ 0 := by have := hg.nlon_ge; positivity
  have hk : (k : ℝ) ≠ 0 := by
    have : k ≠ 0 := by rintro rfl; have := hg.nlon_ge; omega
    exact_mod_cast this
  have hlam : ∀ m : ℕ, g.lam m = m * (2 * Real.pi) / g.nlon := by
    intro m; unfold Grid.lam deg2rad Grid.lon linspaceOpen; field_simp; ring
  obtain ⟨q, hq⟩ : ∃ q : ℕ, i.val + d = (i.val + d) % g.nlon + q * g.nlon :=
    ⟨(i.val + d) / g.nlon, by rw [mul_comm]; exact (Nat.mod_add_div _ _).symm⟩
  have hq' : (((i.val + d) % g.nlon : ℕ) : ℝ) = i.val + d - q * g.nlon := by
    have : ((i.val + d : ℕ) : ℝ) = (((i.val + d) % g.nlon + q * g.nlon : ℕ) : ℝ) := congrArg _ hq
    push_cast at this; linarith
  have e : g.lam ((i.val + d) % g.nlon) = g.lam i + 2 * Real.pi / (k : ℤ) + ((-q : ℤ) : ℝ) * (2 * Real.pi) := by
    rw [hlam, hlam, hq']
    have hd' : (k : ℝ) * d = g.nlon := by exact_mod_cast hd
    push_cast
    rw [← hd']
    have hdn : (d : ℝ) ≠ 0 := by rintro h; rw [h, mul_zero] at hd'; exact hn hd'.symm
    field_simp; ring
  rw [e, (C58_sine_periodic height clat slat k _ _ _).1]
  exact (C58_sine_periodic height clat slat k (g.lam i) (g.lat j) 0).2 (by exact_mod_cast hk)

/-- C58 is false for the Gaussian mountain: shifting the centre longitude by 360° changes the height at every gridpoint that is
not exactly opposite, on every grid. -/
theorem C58_gaussian_shift_refuted (height clon clat slon slat : ℝ) (hh : height ≠ 0) (h1 : slon ≠ 0) (f f' : g.Fld)
    (hf : (OrogKind.gaussian height clon clat slon slat).orography g = .ok f)
    (hf' : (OrogKind.gaussian height (clon + 360) clat slon slat).orography g = .ok f') (j : Fin g.nlat) (i : Fin g.nlon) :
    f j i = f' j i ↔ g.lon i = clon + 180 := by
  cases hf; cases hf'
  change OrogKind.gaussianHeight height clon clat slon slat (g.lon i) (g.lat j) =
    OrogKind.gaussianHeight height (clon + 360) clat slon slat (g.lon i) (g.lat j) ↔ _
  unfold OrogKind.gaussianHeight
  have hs2 : slon ^ 2 ≠ 0 := pow_ne_zero 2 h1
  rw [mul_left_inj' (Real.exp_pos _).ne', mul_right_inj' hh, Real.exp_eq_exp, div_left_inj' hs2]
  constructor
  · intro h; nlinarith
  · intro h; rw [h]; ring

/-- Consequence: a mountain centred near 0°E is cut off at 360°: the height at the last longitude of the grid tends to be that
of a point almost 360° away, although it is the western neighbour of the centre. Concretely, on a grid with at least 4
longitudes a mountain at 0°E with standard deviation `slon` is lower at 90°W (where the grid has that point) than at 90°E. -/
theorem C58_gaussian_asymmetric_refuted (hg : g.Valid) (height clat slon slat : ℝ) (hh : 0 < height) (h1 : slon ≠ 0) (f : g.Fld)
    (hf : (OrogKind.gaussian height 0 clat slon slat).orography g = .ok f) (j : Fin g.nlat) (i i' : Fin g.nlon)
    (hi : i.val ≠ 0) (hii : i.val + i'.val = g.nlon) (hlt : i.val < i'.val) : f j i' < f j i := by
  cases hf
  change OrogKind.gaussianHeight height 0 clat slon slat (g.lon i') (g.lat j) <
    OrogKind.gaussianHeight height 0 clat slon slat (g.lon i) (g.lat j)
  unfold OrogKind.gaussianHeight
  have hlon : ∀ m : ℕ, g.lon m = m * (360 / g.nlon) := by intro m; unfold Grid.lon linspaceOpen; ring
  have hd : 0 < 360 / (g.nlon : ℝ) := by have := hg.nlon_ge; positivity
  have hs2 : 0 < slon ^ 2 := by positivity
  have hlt' : (i.val : ℝ) < i'.val := by exact_mod_cast hlt
  have h0 : (0 : ℝ) ≤ i.val := by positivity
  refine mul_lt_mul_of_pos_right ?_ (Real.exp_pos _)
  refine mul_lt_mul_of_pos_left ?_ hh
  rw [Real.exp_lt_exp, div_lt_div_iff_of_pos_right hs2, hlon, hlon, sub_zero, sub_zero]
  have : ((i.val : ℝ) * (360 / g.nlon)) ^ 2 < ((i'.val : ℝ) * (360 / g.nlon)) ^ 2 := by
    apply pow_lt_pow_left₀ _ (by positivity) two_ne_zero
    exact mul_lt_mul_of_pos_right hlt' hd
  linarith

/-- The argument `stdev` may be a number or a pair; a number stands for both directions. -/
theorem C58_stdev (height x y : ℝ) (c : ℝ × ℝ) :
    OrogKind.mkGaussian height c (.one x) = OrogKind.mkGaussian height c (.two x x) ∧
    OrogKind.mkGaussian height c (.two x y) = .gaussian height c.1 c.2 x y := ⟨rfl, rfl⟩

/-- Non-vacuity of C58: default arguments. -/
example : ∃ f, (OrogKind.mkGaussian 1500 (30, 45) (.two (15 / 2) 20)).orography grid30 = .ok f := ⟨_, rfl⟩

/-! ## C59 forcing -/

/-- The wind components that the documentation promises for each option -/
noncomputable def promisedWind (S : g.Sph) (s : St PyTime g) (j : Fin g.nlat) (i : Fin g.nlon) : WindKind → ℝ × ℝ
  | .act c => (c * s.u S j i, c * s.v S j i)
  | .zon c => (c * ((∑ i', s.u S j i') / g.nlon), 0)
  | .sbr c => (c * Real.cos (deg2rad (g.lat j)), 0)

/-- C59: the forcing is `-f/H u·∇h` with the wind of the selected option and the actual or the given Coriolis parameter. -/
theorem C59_formula (o : Orog) (s : St PyTime g) (h : g.Fld) (hh : o.kind.orography g = .ok h) :
    ∃ F, o.force S s = .ok F ∧ ∀ j i, F j i = -(o.fcorRef.getD (2 * g.omega * Real.sin (deg2rad (g.lat j)))) / o.scaleHeight *
      ((promisedWind S s j i o.wind).1 * (Grid.gradient S h).1 j i + (promisedWind S s j i o.wind).2 * (Grid.gradient S h).2 j i) := by
  refine ⟨o.combine (o.getWind S s) (Grid.gradient S h), ?_, fun j i => ?_⟩
  · unfold Orog.force Orog.gradient
    rw [hh]
  · unfold Orog.combine Orog.getWind promisedWind
    cases o.fcorRef <;> cases o.wind <;> rfl

/-- C59: exceptions of the interpolation are passed on. -/
theorem C59_raises (o : Orog) (s : St PyTime g) (e : PyErr) (hh : o.kind.orography g = .error e) : o.force S s = .error e := by
  unfold Orog.force Orog.gradient
  rw [hh]

/-- C59: linear in the orography. -/
theorem C59_linear_orography (hl : S.IsLinear) (o o1 o2 : Orog) (c : ℝ) (s : St PyTime g)
    (hw1 : o1.wind = o.wind ∧ o1.scaleHeight = o.scaleHeight ∧ o1.fcorRef = o.fcorRef)
    (hw2 : o2.wind = o.wind ∧ o2.scaleHeight = o.scaleHeight ∧ o2.fcorRef = o.fcorRef)
    (h1 h2 : g.Fld) (e1 : o1.kind.orography g = .ok h1) (e2 : o2.kind.orography g = .ok h2)
    (e : o.kind.orography g = .ok (c • h1 + h2)) :
    ∃ F F1 F2, o.force S s = .ok F ∧ o1.force S s = .ok F1 ∧ o2.force S s = .ok F2 ∧ F = c • F1 + F2 := by
  obtain ⟨F, hF, hF'⟩ := C59_formula (S := S) o s _ e
  obtain ⟨F1, hF1, hF1'⟩ := C59_formula (S := S) o1 s _ e1
  obtain ⟨F2, hF2, hF2'⟩ := C59_formula (S := S) o2 s _ e2
  refine ⟨F, F1, F2, hF, hF1, hF2, ?_⟩
  have hgrad : Grid.gradient S (c • h1 + h2) = c • Grid.gradient S h1 + Grid.gradient S h2 := by
    unfold Grid.gradient Grid.toSpectral
    rw [hl.grdtospec_add, hl.grdtospec_smul, hl.getgrad_add, hl.getgrad_smul]
  funext j i
  simp only [Pi.add_apply, Pi.smul_apply, smul_eq_mul]
  rw [hF', hF1', hF2', hgrad, hw1.1, hw1.2.1, hw1.2.2, hw2.1, hw2.2.1, hw2.2.2]
  simp only [Prod.fst_add, Prod.snd_add, Prod.smul_fst, Prod.smul_snd, Pi.add_apply, Pi.smul_apply, smul_eq_mul]
  ring

/-- The hypothesis of linearity on orographies holds for gridded ones on the same coordinates and for mountains with added
heights. -/
theorem C59_linear_kinds {nlon nlat : ℕ} (lon : Fin nlon → ℝ) (lat : Fin nlat → ℝ) (o1 o2 : Fin nlat → Fin nlon → ℝ) (c : ℝ)
    (h1 h2 : g.Fld) (e1 : (OrogKind.gridded nlon nlat nlat nlon lon lat o1).orography g = .ok h1)
    (e2 : (OrogKind.gridded nlon nlat nlat nlon lon lat o2).orography g = .ok h2) :
    (OrogKind.gridded nlon nlat nlat nlon lon lat (c • o1 + o2)).orography g = .ok (c • h1 + h2) ∧
    ∀ a b clon clat slon slat, ∃ k1 k2 k3, (OrogKind.gaussian a clon clat slon slat).orography g = .ok k1 ∧
      (OrogKind.gaussian b clon clat slon slat).orography g = .ok k2 ∧
      (OrogKind.gaussian (c * a + b) clon clat slon slat).orography g = .ok k3 ∧ k3 = c • k1 + k2 := by
  constructor
  · obtain ⟨n1, n2, r1⟩ := gridded_ok e1
    obtain ⟨_, _, r2⟩ := gridded_ok e2
    obtain ⟨f, hf⟩ := (C57_shapes (g := g) lon lat (c • o1 + o2)).1.mpr ⟨rfl, rfl, n1, n2⟩
    rw [hf]
    congr 1
    obtain ⟨_, _, r⟩ := gridded_ok hf
    funext j i
    simp only [Pi.add_apply, Pi.smul_apply, smul_eq_mul]
    rw [r, r1, r2, ← interp_linear]
    congr 1
    funext i'
    simp only [Pi.add_apply, Pi.smul_apply, smul_eq_mul]
    rw [interp_linear]
  · intro a b clon clat slon slat
    refine ⟨_, _, _, rfl, rfl, rfl, ?_⟩
    funext j i
    simp only [Pi.add_apply, Pi.smul_apply, smul_eq_mul, OrogKind.gaussianHeight]
    ring

/-- C59: linear in the wind factor. -/
theorem C59_linear_wind (o : Orog) (c x y : ℝ) (s : St PyTime g) (W : ℝ → WindKind) (hW : W = .act ∨ W = .zon ∨ W = .sbr)
    (h : g.Fld) (hh : o.kind.orography g = .ok h) :
    ∃ F F1 F2, ({ o with wind := W (c * x + y) } : Orog).force S s = .ok F ∧ ({ o with wind := W x } : Orog).force S s = .ok F1 ∧
      ({ o with wind := W y } : Orog).force S s = .ok F2 ∧ F = c • F1 + F2 := by
  obtain ⟨F, hF, hF'⟩ := C59_formula (S := S) { o with wind := W (c * x + y) } s _ hh
  obtain ⟨F1, hF1, hF1'⟩ := C59_formula (S := S) { o with wind := W x } s _ hh
  obtain ⟨F2, hF2, hF2'⟩ := C59_formula (S := S) { o with wind := W y } s _ hh
  refine ⟨F, F1, F2, hF, hF1, hF2, ?_⟩
  funext j i
  simp only [Pi.add_apply, Pi.smul_apply, smul_eq_mul]
  rw [hF', hF1', hF2']
  rcases hW with rfl | rfl | rfl <;> simp only [promisedWind] <;> ring

/-- C59: no forcing by flat orography. -/
theorem C59_flat (hS : Spharm.Lawful S) (o : Orog) (s : St PyTime g) (c : ℝ) (hh : o.kind.orography g = .ok fun _ _ => c) :
    o.force S s = .ok 0 := by
  obtain ⟨F, hF, hF'⟩ := C59_formula (S := S) o s _ hh
  have hgrad : Grid.gradient S (fun _ _ => c : g.Fld) = 0 := hS.const.grad_const _ (hS.const.analysis_const c).1
  rw [hF]
  congr 1
  funext j i
  rw [hF', hgrad]
  simp

/-- C59: no forcing of an atmosphere at rest with the wind options 'act' and 'zon'. -/
theorem C59_rest (o : Orog) (s : St PyTime g) (c : ℝ) (hu : s.u S = 0) (hv : s.v S = 0) (ho : o.wind = .act c ∨ o.wind = .zon c)
    (h : g.Fld) (hh : o.kind.orography g = .ok h) : o.force S s = .ok 0 := by
  obtain ⟨F, hF, hF'⟩ := C59_formula (S := S) o s _ hh
  rw [hF]
  congr 1
  funext j i
  rw [hF']
  rcases ho with ho | ho <;> rw [ho] <;> simp [promisedWind, hu, hv]

/-- C59: the solid body rotation option does not depend on the state. -/
theorem C59_sbr (o : Orog) (s s' : St PyTime g) (c : ℝ) (ho : o.wind = .sbr c) : o.force S s = o.force S s' := by
  unfold Orog.force Orog.getWind
  rw [ho]

/-- C59: wind options are 'act', 'zon' and 'sbr', everything else raises ValueError. -/
theorem C59_options (k : OrogKind) (H : ℝ) (kind : String) (c : ℝ) (f : Option ℝ) :
    (kind = "act" → Orog.make k H (kind, c) f = .ok ⟨k, H, .act c, f⟩) ∧
    (kind = "zon" → Orog.make k H (kind, c) f = .ok ⟨k, H, .zon c, f⟩) ∧
    (kind = "sbr" → Orog.make k H (kind, c) f = .ok ⟨k, H, .sbr c, f⟩) ∧
    (kind ∉ ["act", "zon", "sbr"] → Orog.make k H (kind, c) f = .error .valueError) := by
  refine ⟨?_, ?_, ?_, ?_⟩
  · rintro rfl; rfl
  · rintro rfl; rfl
  · rintro rfl; rfl
  · intro h
    simp only [List.mem_cons, List.not_mem_nil, or_false, not_or] at h
    unfold Orog.make WindKind.parse
    simp [h.1, h.2.1, h.2.2]

/-- Non-vacuity of C59: a lawful transform, a state at rest and a flat orography. -/
example : Spharm.Lawful sph30 ∧ (OrogKind.gaussian 0 30 45 1 1).orography grid30 = .ok (fun _ _ => 0) :=
  ⟨sph30_lawful, by simp [OrogKind.orography, OrogKind.gaussianHeight]⟩

end Barotropic
