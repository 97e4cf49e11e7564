import Verif.Spec.Io
import Verif.Props.StateList

/-!
# Selections in `from_dataset`
-/

namespace Barotropic
open Io

theorem ravel_eq_cOrder : ∀ s idx : List ℕ, ravel s idx = cOrder s idx
  | _ :: s, i :: idx => by simp only [ravel, cOrder, ravel_eq_cOrder s idx]
  | [], _ => by simp only [ravel, cOrder]
  | _ :: _, [] => by simp only [ravel, cOrder]

theorem cOrder_append (a b x y : List ℕ) (h : InShape a x) : cOrder (a ++ b) (x ++ y) = cOrder a x * b.prod + cOrder b y := by
  unfold InShape at h
  induction h with
  | nil => simp [cOrder]
  | cons h1 h2 ih =>
    simp only [List.cons_append, cOrder, ih, List.prod_append]
    ring

theorem cOrder_lt {s idx : List ℕ} (h : InShape s idx) : cOrder s idx < s.prod := by
  unfold InShape at h
  induction h with
  | nil => simp [cOrder]
  | @cons i n idx s h1 h2 ih =>
    simp only [cOrder, List.prod_cons]
    calc i * s.prod + cOrder s idx < i * s.prod + s.prod := by omega
      _ = (i + 1) * s.prod := by ring
      _ ≤ n * s.prod := Nat.mul_le_mul_right _ h1

theorem cOrder_surj (s : List ℕ) : ∀ k < s.prod, ∃ idx, InShape s idx ∧ cOrder s idx = k := by
  induction s with
  | nil => intro k hk; exact ⟨[], .nil, by simp at hk; simp [cOrder, hk]⟩
  | cons n s ih =>
    intro k hk
    rw [List.prod_cons] at hk
    have hp : 0 < s.prod := Nat.pos_of_ne_zero fun h => by rw [h] at hk; simp at hk
    obtain ⟨idx, h1, h2⟩ := ih (k % s.prod) (Nat.mod_lt _ hp)
    refine ⟨k / s.prod :: idx, .cons ?_ h1, ?_⟩
    · rw [Nat.div_lt_iff_lt_mul hp]; exact hk
    · simp only [cOrder, h2]
      rw [mul_comm]; exact Nat.div_add_mod k s.prod

theorem cOrder_inj {s x y : List ℕ} (hx : InShape s x) (hy : InShape s y) (h : cOrder s x = cOrder s y) : x = y := by
  unfold InShape at hx hy
  induction hx generalizing y with
  | nil => cases hy; rfl
  | @cons i n idx s h1 h2 ih =>
    cases hy with
    | @cons j _ idy _ h3 h4 =>
      simp only [cOrder] at h
      have hlx : cOrder s idx < s.prod := cOrder_lt h2
      have hly : cOrder s idy < s.prod := cOrder_lt h4
      have hp : 0 < s.prod := by omega
      have e1 : (i * s.prod + cOrder s idx) / s.prod = i := by
        rw [mul_comm, Nat.mul_add_div hp, Nat.div_eq_of_lt hlx, add_zero]
      have e2 : (j * s.prod + cOrder s idy) / s.prod = j := by
        rw [mul_comm, Nat.mul_add_div hp, Nat.div_eq_of_lt hly, add_zero]
      have hij : i = j := by rw [← e1, ← e2, h]
      subst hij
      rw [ih h4 (by omega)]

/-- The entries of lists at the given positions -/
def pick {α : Type} : List (List α) → List ℕ → Option (List α)
  | [], [] => some []
  | l :: ls, i :: idx =>
    match l[i]?, pick ls idx with
    | some x, some xs => some (x :: xs)
    | _, _ => none
  | _, _ => none

theorem pick_some {α : Type} (ls : List (List α)) (idx : List ℕ) (h : InShape (ls.map List.length) idx) : ∃ sel, pick ls idx = some sel := by
  unfold InShape at h
  induction ls generalizing idx with
  | nil =>
    cases idx with
    | nil => exact ⟨[], rfl⟩
    | cons i idx => cases h
  | cons l ls ih =>
    cases h with
    | @cons i _ idx _ h1 h2 =>
      obtain ⟨sel, hs⟩ := ih idx h2
      exact ⟨l[i] :: sel, by simp [pick, hs, List.getElem?_eq_getElem h1]⟩

theorem product_length {α : Type} (ls : List (List α)) : (product ls).length = (ls.map List.length).prod := by
  induction ls with
  | nil => simp [product]
  | cons l ls ih =>
    simp only [product, List.length_flatMap, List.length_map, ih, List.map_cons, List.prod_cons]
    simp

theorem flatMap_get {α β : Type} (l : List α) (f : α → List β) (n : ℕ) (hf : ∀ x, (f x).length = n) (i k : ℕ) (x : α)
    (hi : l[i]? = some x) (hk : k < n) : (l.flatMap f)[i * n + k]? = (f x)[k]? := by
  induction l generalizing i with
  | nil => simp at hi
  | cons a l ih =>
    rw [List.flatMap_cons]
    cases i with
    | zero =>
      simp only [List.getElem?_cons_zero, Option.some.injEq] at hi
      subst hi
      rw [zero_mul, zero_add, List.getElem?_append_left (by rw [hf]; exact hk)]
    | succ i =>
      rw [List.getElem?_cons_succ] at hi
      rw [List.getElem?_append_right (by rw [hf]; nlinarith), hf, ← ih i hi]
      congr 1
      have : (i + 1) * n = i * n + n := by ring
      omega

theorem product_get {α : Type} (ls : List (List α)) (idx : List ℕ) (sel : List α) (h : pick ls idx = some sel) :
    (product ls)[cOrder (ls.map List.length) idx]? = some sel := by
  induction ls generalizing idx sel with
  | nil =>
    cases idx with
    | nil => simp [pick] at h; subst h; simp [product, cOrder]
    | cons i idx => simp [pick] at h
  | cons l ls ih =>
    cases idx with
    | nil => simp [pick] at h
    | cons i idx =>
      unfold pick at h
      cases hx : l[i]? with
      | none => rw [hx] at h; simp at h
      | some x =>
        cases hp : pick ls idx with
        | none => rw [hx, hp] at h; simp at h
        | some xs =>
          rw [hx, hp] at h
          cases h
          simp only [product, List.map_cons, cOrder]
          have e := ih idx xs hp
          have hk : cOrder (ls.map List.length) idx < (ls.map List.length).prod := by
            rw [← product_length]
            by_contra hc
            rw [List.getElem?_eq_none (by omega)] at e
            cases e
          rw [flatMap_get l _ (ls.map List.length).prod (by intro x; rw [List.length_map, product_length]) i _ x hx hk,
            List.getElem?_map, e]
          rfl

open Classical in
theorem position_ok {labels : List Label} {l : Label} {k : ℕ} (h : position labels l = .ok k) : labels.count l = 1 ∧ labels[k]? = some l := by
  unfold position at h
  split_ifs at h with h1 h2
  cases h
  exact ⟨h2, by rw [List.getElem?_idxOf h1]⟩

open Classical in
theorem position_of_nodup {labels : List Label} (hn : labels.Nodup) {k : ℕ} {l : Label} (h : labels[k]? = some l) :
    position labels l = .ok k := by
  have hm : l ∈ labels := List.mem_of_getElem? h
  unfold position
  rw [if_pos hm, if_pos (List.count_eq_one_of_mem hn hm)]
  congr 1
  obtain ⟨hk, rfl⟩ := List.getElem?_eq_some_iff.mp h
  exact hn.idxOf_getElem k hk

theorem positions_of_nodup (lss : List (List Label)) (hn : ∀ ls ∈ lss, ls.Nodup) (idx : List ℕ) (sel : List Label)
    (h : pick lss idx = some sel) : positions lss sel = .ok idx := by
  induction lss generalizing idx sel with
  | nil =>
    cases idx with
    | nil => simp [pick] at h; subst h; rfl
    | cons i idx => simp [pick] at h
  | cons l ls ih =>
    cases idx with
    | nil => simp [pick] at h
    | cons i idx =>
      unfold pick at h
      cases hx : l[i]? with
      | none => rw [hx] at h; simp at h
      | some x =>
        cases hp : pick ls idx with
        | none => rw [hx, hp] at h; simp at h
        | some xs =>
          rw [hx, hp] at h
          cases h
          unfold positions
          rw [position_of_nodup (hn l (List.mem_cons_self)) hx, ih (fun a ha => hn a (List.mem_cons_of_mem _ ha)) idx xs hp]

open Classical in
theorem count_one_unique {α : Type} {labels : List α} {l : α} (h : labels.count l = 1) {i k : ℕ} (hi : labels[i]? = some l)
    (hk : labels[k]? = some l) : i = k := by
  have aux : ∀ i k : ℕ, i < k → labels[i]? = some l → labels[k]? = some l → False := by
    intro i k hik hi hk
    have h1 : l ∈ labels.take k := by
      apply List.mem_of_getElem? (i := i)
      rw [List.getElem?_take_of_lt hik]; exact hi
    have h2 : l ∈ labels.drop k := by
      apply List.mem_of_getElem? (i := 0)
      rw [List.getElem?_drop, add_zero]; exact hk
    have h3 := List.count_pos_iff.mpr h1
    have h4 := List.count_pos_iff.mpr h2
    have h5 : labels.count l = (labels.take k).count l + (labels.drop k).count l := by
      rw [← List.count_append, List.take_append_drop]
    omega
  rcases lt_trichotomy i k with h1 | h1 | h1
  · exact (aux i k h1 hi hk).elim
  · exact h1
  · exact (aux k i h1 hk hi).elim

theorem positions_unique (lss : List (List Label)) (idx idx' : List ℕ) (sel : List Label) (h : pick lss idx = some sel)
    (h' : positions lss sel = .ok idx') : idx' = idx := by
  induction lss generalizing idx idx' sel with
  | nil =>
    cases idx with
    | nil => simp [pick] at h; subst h; simp [positions] at h'; exact h'
    | cons i idx => simp [pick] at h
  | cons l ls ih =>
    cases idx with
    | nil => simp [pick] at h
    | cons i idx =>
      unfold pick at h
      cases hx : l[i]? with
      | none => rw [hx] at h; simp at h
      | some x =>
        cases hp : pick ls idx with
        | none => rw [hx, hp] at h; simp at h
        | some xs =>
          rw [hx, hp] at h
          cases h
          unfold positions at h'
          cases h1 : position l x with
          | error e => rw [h1] at h'; cases h'
          | ok k =>
            cases h2 : positions ls xs with
            | error e => rw [h1, h2] at h'; cases h'
            | ok ks =>
              rw [h1, h2] at h'
              cases h'
              obtain ⟨c1, c2⟩ := position_ok h1
              rw [ih idx ks xs hp h2, count_one_unique c1 hx c2]

open Classical in
theorem nodup_of_positions (lss : List (List Label)) (h : ∀ sel ∈ product lss, ∃ ks, positions lss sel = .ok ks)
    (hne : product lss ≠ []) : ∀ ls ∈ lss, ls.Nodup := by
  induction lss with
  | nil => intro ls hls; cases hls
  | cons l lss ih =>
    have hne2 : product lss ≠ [] := by
      intro he
      apply hne
      simp [product, he]
    obtain ⟨sel0, hsel0⟩ := List.exists_mem_of_ne_nil _ hne2
    have hmem : ∀ x ∈ l, ∀ sel ∈ product lss, x :: sel ∈ product (l :: lss) := by
      intro x hx sel hsel
      simp only [product, List.mem_flatMap, List.mem_map]
      exact ⟨x, hx, sel, hsel, rfl⟩
    have hl : l ≠ [] := by
      intro he
      apply hne
      simp [product, he]
    obtain ⟨x0, hx0⟩ := List.exists_mem_of_ne_nil _ hl
    intro ls hls
    rcases List.mem_cons.mp hls with rfl | hls
    · rw [List.nodup_iff_count_le_one]
      intro x
      by_cases hx : x ∈ ls
      · obtain ⟨ks, hks⟩ := h _ (hmem x hx sel0 hsel0)
        unfold positions at hks
        cases hp : position ls x with
        | error e => rw [hp] at hks; cases hks
        | ok k => exact (position_ok hp).1.le
      · rw [List.count_eq_zero_of_not_mem hx]; omega
    · refine ih (fun sel hsel => ?_) hne2 ls hls
      obtain ⟨ks, hks⟩ := h _ (hmem x0 hx0 sel hsel)
      unfold positions at hks
      cases hp : position l x0 with
      | error e => rw [hp] at hks; cases hks
      | ok k =>
        rw [hp] at hks
        dsimp only at hks
        cases hq : positions lss sel with
        | error e => rw [hq] at hks; cases hks
        | ok ks' => exact ⟨ks', rfl⟩

theorem forall₂_exists_left {α β : Type} {R : α → β → Prop} {l : List α} {r : List β} (h : List.Forall₂ R l r) {a : α} (ha : a ∈ l) :
    ∃ b, R a b := by
  induction h with
  | nil => cases ha
  | cons h1 _ ih =>
    rcases List.mem_cons.mp ha with rfl | ha
    · exact ⟨_, h1⟩
    · exact ih ha

/-- What success of `from_dataset` means -/
theorem fromDataset_ok {sph : ∀ g : Grid ℝ, g.Sph} {ds : Dataset} {names : Names} {rs om : ℝ} {nt : Option ℕ} {tf : PyTime}
    {g : Grid ℝ} {states : List (St PyTime g)} (h : fromDataset sph ds names rs om nt tf = .ok ⟨g, states⟩) :
    ∃ lonName lon latName lat dlon src,
      horizontalCoord (squeeze ds) (varMap (squeeze ds) names "lon") = .ok (lonName, lon) ∧ checkLon lon = .ok dlon ∧
      horizontalCoord (squeeze ds) (varMap (squeeze ds) names "lat") = .ok (latName, lat) ∧ checkLat lon.length dlon lat = .ok () ∧
      Grid.make dlon rs om nt = .ok g ∧ source (squeeze ds) names = .ok src ∧
      2 ≤ src.data.dims.length ∧ src.data.dims.drop (src.data.dims.length - 2) = [latName, lonName] ∧
      (product (((src.data.dims.take (src.data.dims.length - 2)).zip src.data.shape).map fun p => dimLabels (squeeze ds) p.1 p.2)).mapM
        (loopBody (sph g) (squeeze ds) names src
          (((src.data.dims.take (src.data.dims.length - 2)).zip src.data.shape).map fun p => dimLabels (squeeze ds) p.1 p.2) tf) =
          .ok states := by
  unfold fromDataset at h
  dsimp only at h
  cases h1 : horizontalCoord (squeeze ds) (varMap (squeeze ds) names "lon") with
  | error e => rw [h1] at h; cases h
  | ok p =>
    obtain ⟨lonName, lon⟩ := p
    rw [h1] at h; dsimp only at h
    cases h2 : checkLon lon with
    | error e => rw [h2] at h; cases h
    | ok dlon =>
      rw [h2] at h; dsimp only at h
      cases h3 : horizontalCoord (squeeze ds) (varMap (squeeze ds) names "lat") with
      | error e => rw [h3] at h; cases h
      | ok p =>
        obtain ⟨latName, lat⟩ := p
        rw [h3] at h; dsimp only at h
        cases h4 : checkLat lon.length dlon lat with
        | error e => rw [h4] at h; cases h
        | ok u =>
          rw [h4] at h; dsimp only at h
          cases h5 : Grid.make dlon rs om nt with
          | error e => rw [h5] at h; cases h
          | ok g' =>
            rw [h5] at h; dsimp only at h
            cases h6 : source (squeeze ds) names with
            | error e => rw [h6] at h; cases h
            | ok src =>
              rw [h6] at h; dsimp only at h
              split_ifs at h with h7 h8 h9
              cases h10 : (product (((src.data.dims.take (src.data.dims.length - 2)).zip src.data.shape).map
                  fun p => dimLabels (squeeze ds) p.1 p.2)).mapM (loopBody (sph g') (squeeze ds) names src
                  (((src.data.dims.take (src.data.dims.length - 2)).zip src.data.shape).map
                    fun p => dimLabels (squeeze ds) p.1 p.2) tf) with
              | error e => rw [h10] at h; cases h
              | ok states' =>
                rw [h10] at h
                cases h
                exact ⟨lonName, lon, latName, lat, dlon, src, rfl, h2, rfl, h4, h5, rfl, by omega, h8, h10⟩

theorem squeezeVar_eq {α : Type} (v : XVar α) (size : String → ℕ) (h : v.shape = v.dims.map size) :
    (squeezeVar v).dims = v.dims.filter (fun d => size d ≠ 1) ∧ (squeezeVar v).shape = (squeezeVar v).dims.map size ∧
      (squeezeVar v).shape.prod = v.shape.prod := by
  have key : ∀ l : List String, ((l.zip (l.map size)).filter fun p => p.2 ≠ 1) =
      (l.filter fun d => size d ≠ 1).map fun d => (d, size d) := by
    intro l
    induction l with
    | nil => rfl
    | cons a l ih =>
      simp only [List.map_cons, List.zip_cons_cons, List.filter_cons, ih]
      split_ifs <;> simp
  have h1 : (squeezeVar v).dims = v.dims.filter (fun d => size d ≠ 1) := by
    unfold squeezeVar
    dsimp only
    rw [h, key, List.map_map]
    exact List.map_id _
  have h2 : (squeezeVar v).shape = (squeezeVar v).dims.map size := by
    rw [h1]
    unfold squeezeVar
    dsimp only
    rw [h, key, List.map_map]
    rfl
  refine ⟨h1, h2, ?_⟩
  rw [h2, h1, h]
  generalize v.dims = l
  induction l with
  | nil => rfl
  | cons a l ih =>
    rw [List.filter_cons]
    by_cases ha : size a = 1
    · simp only [ha]
      simp only [ne_eq, not_true_eq_false, decide_false, Bool.false_eq_true, if_false, List.map_cons, List.prod_cons, one_mul, ha]
      simpa using ih
    · simp only [ne_eq, ha, not_false_eq_true, decide_true, if_true, List.map_cons, List.prod_cons]
      congr 1

theorem Dataset.Consistent.squeeze {ds : Dataset} (h : ds.Consistent) : (Io.squeeze ds).Consistent := by
  obtain ⟨⟨size, h1, h2⟩, h3⟩ := h
  refine ⟨⟨size, fun c hc => ?_, fun v hv => ?_⟩, fun c hc v hv hcv => ?_⟩
  · obtain ⟨c', hc', rfl⟩ := List.mem_map.mp hc
    obtain ⟨a1, a2⟩ := h1 c' hc'
    obtain ⟨b1, b2, b3⟩ := squeezeVar_eq c'.2 size a1
    exact ⟨b2, by rw [b3, ← a2]; rfl⟩
  · obtain ⟨c', hc', rfl⟩ := List.mem_map.mp hv
    obtain ⟨a1, a2⟩ := h2 c' hc'
    obtain ⟨b1, b2, b3⟩ := squeezeVar_eq c'.2 size a1
    exact ⟨b2, by rw [b3, ← a2]; rfl⟩
  · obtain ⟨c', hc', rfl⟩ := List.mem_map.mp hc
    obtain ⟨v', hv', rfl⟩ := List.mem_map.mp hv
    dsimp only at hcv ⊢
    obtain ⟨b1, -, -⟩ := squeezeVar_eq v'.2 size (h2 v' hv').1
    rw [b1, List.mem_filter] at hcv
    have hd := h3 c' hc' v' hv' hcv.1
    obtain ⟨b1, -, -⟩ := squeezeVar_eq c'.2 size (h1 c' hc').1
    rw [b1, hd, List.filter_cons, if_pos (by exact hcv.2)]
    rfl

theorem coord_mem {ds : Dataset} {n : String} {c : XVar Label} (h : ds.coord n = some c) : (n, c) ∈ ds.coords := by
  unfold Dataset.coord at h
  cases hf : ds.coords.find? (·.1 = n) with
  | none => rw [hf] at h; cases h
  | some p =>
    rw [hf] at h
    cases h
    have h1 := List.mem_of_find?_eq_some hf
    have h2 := List.find?_some hf
    simp only [decide_eq_true_eq] at h2
    rw [← h2]; exact h1

theorem var_mem {ds : Dataset} {n : String} {c : XVar ℝ} (h : ds.var n = some c) : (n, c) ∈ ds.vars := by
  unfold Dataset.var at h
  cases hf : ds.vars.find? (·.1 = n) with
  | none => rw [hf] at h; cases h
  | some p =>
    rw [hf] at h
    cases h
    have h1 := List.mem_of_find?_eq_some hf
    have h2 := List.find?_some hf
    simp only [decide_eq_true_eq] at h2
    rw [← h2]; exact h1

/-- The variables of the source are variables of the dataset. -/
theorem source_mem {ds : Dataset} {names : Names} {src : Source} (h : source ds names = .ok src) :
    (∃ n, (n, src.data) ∈ ds.vars) ∧ ∀ u v, src = .wind u v → u.dims = v.dims ∧ ∃ n, (n, v) ∈ ds.vars := by
  have pair : ∀ u v : String, (match ds.var u, ds.var v with
      | some u, some v => if u.dims = v.dims then Except.ok (Source.wind u v) else .error PyErr.assertionError
      | _, _ => .error .keyError) = .ok src →
      (∃ n, (n, src.data) ∈ ds.vars) ∧ ∀ u v, src = .wind u v → u.dims = v.dims ∧ ∃ n, (n, v) ∈ ds.vars := by
    intro u v h
    cases hu : ds.var u with
    | none => rw [hu] at h; cases h
    | some a =>
      cases hv : ds.var v with
      | none => rw [hu, hv] at h; cases h
      | some b =>
        rw [hu, hv] at h
        dsimp only at h
        split_ifs at h with hd
        cases h
        refine ⟨⟨u, var_mem hu⟩, fun u' v' e => ?_⟩
        cases e
        exact ⟨hd, v, var_mem hv⟩
  have rest : (match varMap ds names "vo" with
      | some vo => match ds.var vo with
        | some vo => Except.ok (Source.vorticity vo)
        | none => .error PyErr.keyError
      | none => match varMap ds names "avo" with
        | some avo => match ds.var avo with
          | some avo => .ok (.pv avo)
          | none => .error .keyError
        | none => .error .valueError) = .ok src →
      (∃ n, (n, src.data) ∈ ds.vars) ∧ ∀ u v, src = .wind u v → u.dims = v.dims ∧ ∃ n, (n, v) ∈ ds.vars := by
    intro h
    cases hvo : varMap ds names "vo" with
    | some a =>
      rw [hvo] at h; dsimp only at h
      cases hv : ds.var a with
      | none => rw [hv] at h; cases h
      | some b =>
        rw [hv] at h
        cases h
        exact ⟨⟨a, var_mem hv⟩, fun u v e => by cases e⟩
    | none =>
      rw [hvo] at h; dsimp only at h
      cases hav : varMap ds names "avo" with
      | none => rw [hav] at h; cases h
      | some a =>
        rw [hav] at h; dsimp only at h
        cases hv : ds.var a with
        | none => rw [hv] at h; cases h
        | some b =>
          rw [hv] at h
          cases h
          exact ⟨⟨a, var_mem hv⟩, fun u v e => by cases e⟩
  unfold source at h
  cases hu : varMap ds names "u" with
  | none => rw [hu] at h; exact rest h
  | some u =>
    cases hv : varMap ds names "v" with
    | none => rw [hu, hv] at h; exact rest h
    | some v => rw [hu, hv] at h; exact pair u v h

theorem labels_length {ds : Dataset} (hc : ds.Consistent) {n : String} {v : XVar ℝ} (hv : (n, v) ∈ ds.vars) (m : ℕ) :
    (((v.dims.take m).zip v.shape).map fun p => dimLabels ds p.1 p.2).map List.length = v.shape.take m := by
  obtain ⟨⟨size, h1, h2⟩, h3⟩ := hc
  have hs := (h2 _ hv).1
  dsimp only at hs
  have key : ∀ l : List String, (∀ d ∈ l, d ∈ v.dims) →
      ((l.zip (l.map size)).map fun p => dimLabels ds p.1 p.2).map List.length = l.map size := by
    intro l
    induction l with
    | nil => intro _; rfl
    | cons a l ih =>
      intro hl
      simp only [List.map_cons, List.zip_cons_cons, ih fun d hd => hl d (List.mem_cons_of_mem _ hd), List.cons.injEq, and_true]
      unfold dimLabels
      cases hco : ds.coord a with
      | none => simp
      | some c =>
        have hm := coord_mem hco
        have hd := h3 _ hm _ hv (hl a (List.mem_cons_self))
        obtain ⟨e1, e2⟩ := h1 _ hm
        dsimp only at e1 e2 hd ⊢
        rw [e2, e1, hd]
        simp
  have e : (v.dims.take m).zip v.shape = (v.dims.take m).zip ((v.dims.take m).map size) := by
    rw [hs]
    generalize v.dims = l
    induction l generalizing m with
    | nil => simp
    | cons a l ih =>
      cases m with
      | zero => simp
      | succ m => simp only [List.take_succ_cons, List.map_cons, List.zip_cons_cons, ih m]
  rw [e, key _ fun d hd => List.mem_of_mem_take hd, hs, List.map_take]

end Barotropic
