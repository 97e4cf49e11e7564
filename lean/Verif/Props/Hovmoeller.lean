import Verif.Spec.Plot
import Verif.Spec.Io
import Verif.Lemmas.Io
import Verif.Lemmas.Region
import Verif.Props.StateList

/-!
# Hovmöller diagrams (C77)
-/

namespace Barotropic
open Plot Io
variable {H : GridHeap}

/-- A one-dimensional array -/
noncomputable def profile {n : ℕ} (p : Fin n → ℝ) : NdArr := ⟨[n], List.ofFn p⟩

/-- Entry of an array -/
noncomputable def NdArr.at (a : NdArr) (idx : List ℕ) : ℝ := a.data.getD (cOrder a.shape idx) 0

theorem mapM_map {α β : Type} (l : List α) (f : α → Except PyErr β) (g : α → β) (h : ∀ a ∈ l, f a = .ok (g a)) : l.mapM f = .ok (l.map g) := by
  rw [mapM_forall₂, List.forall₂_map_right_iff, List.forall₂_same]
  exact h

theorem stack_profiles {α : Type} (l : List α) (hl : l ≠ []) {n : ℕ} (p : α → Fin n → ℝ) :
    SList.stack (l.map fun s => profile (p s)) = .ok ⟨[l.length, n], l.flatMap fun s => List.ofFn (p s)⟩ := by
  cases l with
  | nil => exact absurd rfl hl
  | cons a l =>
    simp only [List.map_cons, SList.stack]
    rw [if_pos (by intro b hb; obtain ⟨s, -, rfl⟩ := List.mem_map.mp hb; rfl)]
    simp [profile, List.flatMap, Function.comp_def]

theorem stacked_at {α : Type} (l : List α) {n : ℕ} (p : α → Fin n → ℝ) {i : ℕ} {s : α} (hi : l[i]? = some s) (k : Fin n) :
    (l.flatMap fun s => List.ofFn (p s)).getD (i * n + k) 0 = p s k := by
  rw [List.getD_eq_getElem?_getD, flatMap_get l _ n (by simp) i k s hi k.2]
  simp

theorem pick_range (shape idx : List ℕ) (h : InShape shape idx) : pick (shape.map List.range) idx = some idx := by
  unfold InShape at h
  induction h with
  | nil => rfl
  | cons h1 _ ih => simp [pick, ih, List.getElem?_range h1]

/-- Transposition reverses the indices. -/
theorem transpose_at (a : NdArr) (idx : List ℕ) (h : InShape a.shape idx) : (transpose a).at idx.reverse = a.at idx := by
  have h1 : InShape a.shape.reverse idx.reverse := by
    unfold InShape at *
    exact List.forall₂_reverse_iff.mpr h
  have h2 := product_get (a.shape.reverse.map List.range) idx.reverse idx.reverse (pick_range _ _ h1)
  rw [List.map_map, show List.length ∘ List.range = id by funext n; simp, List.map_id] at h2
  unfold NdArr.at transpose
  rw [List.getD_eq_getElem?_getD, List.getElem?_map, h2, Option.map_some, Option.getD_some, List.reverse_reverse, ravel_eq_cOrder]

theorem hovmoellerify_eq (s0 : AnySt PyTime H) (rest : List (AnySt PyTime H)) (f : AnySt PyTime H → Except PyErr NdArr) (a : NdArr)
    (as : List NdArr) (h : (s0 :: rest).mapM f = .ok (a :: as)) :
    hovmoellerify (s0 :: rest) f =
      if a.data.length = (H.grid s0.1).nlon then
        (SList.stack (a :: as)).map fun b => .zonal ((List.range (H.grid s0.1).nlon).map (H.grid s0.1).lon) ((s0 :: rest).map fun s => s.2.time) b
      else if a.data.length = (H.grid s0.1).nlat then
        (SList.stack (a :: as)).map fun b =>
          .meridional ((s0 :: rest).map fun s => s.2.time) ((List.range (H.grid s0.1).nlat).map (H.grid s0.1).lat) (transpose b)
      else .error .valueError := by
  unfold hovmoellerify
  dsimp only
  rw [h]
  dsimp only
  cases SList.stack (a :: as) <;> rfl

/-- C77: zonal profiles are the rows of an array of shape (ntime, nlon), with longitude as x-coordinate and the times of the states as
y-coordinate. -/
theorem C77_zonal (s0 : AnySt PyTime H) (rest : List (AnySt PyTime H)) (f : AnySt PyTime H → Except PyErr NdArr)
    (p : AnySt PyTime H → Fin (H.grid s0.1).nlon → ℝ) (hf : ∀ s ∈ s0 :: rest, f s = .ok (profile (p s))) :
    ∃ b, hovmoellerify (s0 :: rest) f = .ok (.zonal ((List.range (H.grid s0.1).nlon).map (H.grid s0.1).lon)
        ((s0 :: rest).map fun s => s.2.time) b) ∧
      b.shape = [(s0 :: rest).length, (H.grid s0.1).nlon] ∧
      ∀ i s (k : Fin (H.grid s0.1).nlon), (s0 :: rest)[i]? = some s → b.at [i, k] = p s k := by
  refine ⟨⟨_, (s0 :: rest).flatMap fun s => List.ofFn (p s)⟩, ?_, rfl, fun i s k hi => ?_⟩
  · have := stack_profiles (s0 :: rest) (by simp) p
    rw [List.map_cons] at this
    rw [hovmoellerify_eq s0 rest f _ _ (mapM_map _ f _ hf), if_pos (by simp [profile]), this]
    rfl
  · simp only [NdArr.at, cOrder, List.prod_cons, List.prod_nil, mul_one, add_zero]
    exact stacked_at _ p hi k

/-- C77: meridional profiles are the columns of an array of shape (nlat, ntime), with the times of the states as x-coordinate and latitude
as y-coordinate. -/
theorem C77_meridional (s0 : AnySt PyTime H) (rest : List (AnySt PyTime H)) (hg : (H.grid s0.1).Valid) (f : AnySt PyTime H → Except PyErr NdArr)
    (p : AnySt PyTime H → Fin (H.grid s0.1).nlat → ℝ) (hf : ∀ s ∈ s0 :: rest, f s = .ok (profile (p s))) :
    ∃ b, hovmoellerify (s0 :: rest) f = .ok (.meridional ((s0 :: rest).map fun s => s.2.time)
        ((List.range (H.grid s0.1).nlat).map (H.grid s0.1).lat) b) ∧
      b.shape = [(H.grid s0.1).nlat, (s0 :: rest).length] ∧
      ∀ i s (k : Fin (H.grid s0.1).nlat), (s0 :: rest)[i]? = some s → b.at [(k : ℕ), i] = p s k := by
  refine ⟨transpose ⟨[(s0 :: rest).length, (H.grid s0.1).nlat], (s0 :: rest).flatMap fun s => List.ofFn (p s)⟩, ?_, ?_, fun i s k hi => ?_⟩
  · have h1 := Grid.nlat_lt_nlon hg
    have := stack_profiles (s0 :: rest) (by simp) p
    rw [List.map_cons] at this
    rw [hovmoellerify_eq s0 rest f _ _ (mapM_map _ f _ hf), if_neg (by simp only [profile, List.length_ofFn]; omega),
      if_pos (by simp [profile]), this]
    rfl
  · simp [transpose]
  · have hlt : i < (s0 :: rest).length := by
      by_contra hc
      rw [List.getElem?_eq_none (by omega)] at hi
      cases hi
    refine (transpose_at ⟨[(s0 :: rest).length, (H.grid s0.1).nlat], _⟩ [i, k] (.cons hlt (.cons k.2 .nil))).trans ?_
    simp only [NdArr.at, cOrder, List.prod_cons, List.prod_nil, mul_one, add_zero]
    exact stacked_at _ p hi k

/-- C77: no states, and one-dimensional results that do not all have the length nlon or all have the length nlat, are errors. -/
theorem C77_errors (f : AnySt PyTime H → Except PyErr NdArr) :
    hovmoellerify (H := H) [] f = .error .valueError ∧
      ∀ (s0 : AnySt PyTime H) (rest : List (AnySt PyTime H)) (n : AnySt PyTime H → ℕ) (p : ∀ s, Fin (n s) → ℝ),
        (∀ s ∈ s0 :: rest, f s = .ok (profile (p s))) → (∃ s ∈ s0 :: rest, n s ≠ (H.grid s0.1).nlon) →
        (∃ s ∈ s0 :: rest, n s ≠ (H.grid s0.1).nlat) → hovmoellerify (s0 :: rest) f = .error .valueError := by
  refine ⟨rfl, fun s0 rest n p hf h1 h2 => ?_⟩
  rw [hovmoellerify_eq s0 rest f _ _ (mapM_map _ f _ hf)]
  have key : (∃ s ∈ s0 :: rest, n s ≠ n s0) → SList.stack ((s0 :: rest).map fun s => profile (p s)) = .error .valueError := by
    rintro ⟨s, hs, hne⟩
    rcases List.mem_cons.mp hs with rfl | hs
    · exact absurd rfl hne
    · simp only [List.map_cons, SList.stack]
      rw [if_neg]
      intro hall
      have := hall _ (List.mem_map.mpr ⟨s, hs, rfl⟩)
      simp only [profile, List.cons.injEq, and_true] at this
      exact hne this
  rw [List.map_cons] at key
  have e : (profile (p s0)).data.length = n s0 := by simp [profile]
  rw [e]
  split_ifs with c1 c2
  · rw [key (by rwa [c1])]; rfl
  · rw [key (by rwa [c2])]; rfl
  · rfl

/-- C77: an error of the function is passed on. -/
theorem C77_function_error (s0 : AnySt PyTime H) (rest : List (AnySt PyTime H)) (f : AnySt PyTime H → Except PyErr NdArr) (e : PyErr)
    (h : f s0 = .error e) : hovmoellerify (s0 :: rest) f = .error e := by
  unfold hovmoellerify
  simp [List.mapM_cons, h, bind, Except.bind]

/-- C77: arrays that are not one-dimensional are not rejected if their size is nlon: here an array of shape (1, nlon), which gives an
array of shape (1, 1, nlon). -/
theorem C77_shape_refuted (s0 : AnySt PyTime H) (d : List ℝ) (hd : d.length = (H.grid s0.1).nlon) :
    hovmoellerify [s0] (fun _ => .ok ⟨[1, (H.grid s0.1).nlon], d⟩) =
      .ok (.zonal ((List.range (H.grid s0.1).nlon).map (H.grid s0.1).lon) [s0.2.time] ⟨[1, 1, (H.grid s0.1).nlon], d⟩) := by
  rw [hovmoellerify_eq s0 [] _ ⟨[1, (H.grid s0.1).nlon], d⟩ [] 
      (mapM_map [s0] _ (fun _ => (⟨[1, (H.grid s0.1).nlon], d⟩ : NdArr)) fun _ _ => rfl),
    if_pos hd]
  simp [SList.stack, Except.map]

/-- Non-vacuity: the profile 0, 1, 2, … of any state, twice -/
example (s0 : AnySt PyTime H) : ∃ b : NdArr, b.shape = [2, (H.grid s0.1).nlon] ∧ ∀ k : Fin (H.grid s0.1).nlon, b.at [1, k] = k := by
  obtain ⟨b, -, h2, h3⟩ := C77_zonal s0 [s0] (fun _ => .ok (profile (n := (H.grid s0.1).nlon) fun k => k)) (fun _ k => k) fun _ _ => rfl
  exact ⟨b, h2, fun k => h3 1 s0 k rfl⟩

end Barotropic
