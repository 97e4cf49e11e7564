import Verif.Lemmas.Zonal

/-!
# Initial conditions: C60
-/

namespace Barotropic
open Init

variable {τ : Type} {g : Grid ℝ} {S : g.Sph}

theorem from_symmetric_wind (hS : Spharm.Lawful S) {t : τ} {u : g.Fld} (hu : ZonallySymmetric u) :
    ZonallySymmetric ((St.fromWind S t u 0 : St τ g).pv S) ∧ ZonallySymmetric ((St.fromWind S t u 0 : St τ g).u S) ∧
      (g.Valid → (St.fromWind S t u 0 : St τ g).v S = 0) := by
  have h0 : ZonallySymmetric (0 : g.Fld) := fun _ _ _ => rfl
  have hq : PhaseInv g.nlon (St.fromWind S t u 0 : St τ g).q := by
    refine hS.rot.analysis (Grid.fcor2_symm.add ?_)
    exact hS.rot.synthesis (hS.rot.vrtdiv hu h0).1
  exact ⟨St.symm_pv hS.rot hq, (St.symm_uv hS.rot hq).1, fun hg => St.zonal_v hg hS.rot hq⟩

/-- C60: `gaussian_jet`, `held_1985` and `solid_body_rotation` are `from_wind` of a zonally symmetric zonal wind that vanishes
at both poles, and of no meridional wind. -/
theorem C60_prescribed (hg : g.Valid) (t : τ) (a b c : ℝ) :
    (∃ u : g.Fld, gaussianJet S t a b c = .fromWind S t u 0 ∧ ZonallySymmetric u ∧
      ∀ j : Fin g.nlat, (j.val = 0 ∨ j.val = g.nlat - 1) → ∀ i, u j i = 0) ∧
    (∃ u : g.Fld, held1985 S t a b c = .fromWind S t u 0 ∧ ZonallySymmetric u ∧
      ∀ j : Fin g.nlat, (j.val = 0 ∨ j.val = g.nlat - 1) → ∀ i, u j i = 0) ∧
    (∃ u : g.Fld, solidBodyRotation S t a = .fromWind S t u 0 ∧ ZonallySymmetric u ∧
      ∀ j : Fin g.nlat, (j.val = 0 ∨ j.val = g.nlat - 1) → ∀ i, u j i = 0) := by
  have hcos : ∀ j : Fin g.nlat, (j.val = 0 ∨ j.val = g.nlat - 1) → Real.cos (g.phi j) = 0 := by
    rintro j (hj | hj) <;> rw [hj]
    · rw [Grid.phi_zero hg, Real.cos_pi_div_two]
    · rw [Grid.phi_last hg, Real.cos_neg, Real.cos_pi_div_two]
  have h0 : g.lat 0 = 90 := by rw [Grid.lat_eq hg]; simp
  refine ⟨⟨_, rfl, fun _ _ _ => rfl, ?_⟩, ⟨_, rfl, fun _ _ _ => rfl, ?_⟩, ⟨_, rfl, fun _ _ _ => rfl, ?_⟩⟩
  · rintro j (hj | hj) i <;> simp only [gaussianWind, hj]
    · rw [h0]; ring
    · rw [Grid.lat_last hg]; ring
  · intro j hj i
    simp only [heldWind, hcos j hj]; ring
  · intro j hj i
    simp only [solidBodyWind, hcos j hj]; ring

/-- C60: the profiles away from the poles are those of the documentation. -/
theorem C60_profiles (j : Fin g.nlat) (i : Fin g.nlon) (a b c : ℝ) :
    solidBodyWind g a j i = a * Real.cos (g.phi j) ∧
    heldWind g a b c j i = a * Real.cos (g.phi j) - b * Real.cos (g.phi j) ^ 3 +
      c * Real.cos (g.phi j) ^ 6 * Real.sin (g.phi j) ^ 2 ∧
    ∃ α β : ℝ, ∀ j' i', gaussianWind g a b c j' i' =
      a * Real.exp (-((g.lat j' - b) / c) ^ 2 / 2) + α + β * g.lat j' := by
  refine ⟨rfl, rfl, -(1 / 2 * (bell g a b c (g.nlat - 1) + bell g a b c 0)),
    (bell g a b c (g.nlat - 1) - bell g a b c 0) / 180, fun j' i' => ?_⟩
  simp only [gaussianWind]
  have : bell g a b c j' = a * Real.exp (-((g.lat j' - b) / c) ^ 2 / 2) := by
    unfold bell; congr 2; rw [div_pow]; ring
  rw [this]; ring

/-- C60: the states so created are zonally symmetric and have no meridional wind. -/
theorem C60_states (hS : Spharm.Lawful S) (hg : g.Valid) (t : τ) (a b c : ℝ) :
    ∀ s ∈ [gaussianJet S t a b c, held1985 S t a b c, solidBodyRotation S t a, motionless S t],
      ZonallySymmetric (s.pv S) ∧ ZonallySymmetric (s.u S) ∧ s.v S = 0 := by
  intro s hs
  simp only [List.mem_cons, List.not_mem_nil, or_false] at hs
  rcases hs with rfl | rfl | rfl | rfl
  · have := from_symmetric_wind (t := t) hS (u := gaussianWind g a b c) (fun _ _ _ => rfl)
    exact ⟨this.1, this.2.1, this.2.2 hg⟩
  · have := from_symmetric_wind (t := t) hS (u := heldWind g a b c) (fun _ _ _ => rfl)
    exact ⟨this.1, this.2.1, this.2.2 hg⟩
  · have := from_symmetric_wind (t := t) hS (u := solidBodyWind g a) (fun _ _ _ => rfl)
    exact ⟨this.1, this.2.1, this.2.2 hg⟩
  · have hq : PhaseInv g.nlon (motionless S t : St τ g).q := hS.rot.analysis Grid.fcor2_symm
    exact ⟨St.symm_pv hS.rot hq, (St.symm_uv hS.rot hq).1, St.zonal_v hg hS.rot hq⟩

/-- C60: a motionless state is at rest, its PV is planetary vorticity. -/
theorem C60_motionless (hS : Spharm.Lawful S) (t : τ) :
    (motionless S t : St τ g).u S = 0 ∧ (motionless S t : St τ g).v S = 0 ∧ (motionless S t : St τ g).pv S = g.fcor2 ∧
      (motionless S t : St τ g).time = t := by
  have h2 : (motionless S t : St τ g).invertPv S = 0 := by
    unfold St.invertPv
    have : (motionless S t : St τ g).vorticitySpectral S = 0 := sub_self _
    rw [this]; exact hS.lin.getuv_zero
  exact ⟨congrArg Prod.fst h2, congrArg Prod.snd h2, hS.coriolis, rfl⟩

/-- C60: `zonally_symmetric` replicates the profile along every latitude circle. -/
theorem C60_zonally_symmetric (t : τ) (v : Fin g.nlat → ℝ) :
    zonallySymmetric S t none (some (.d1 g.nlat v)) = .ok (St.ofPv S t fun j _ => v j) ∧
    zonallySymmetric S t (some (.d1 g.nlat v)) none = .ok (St.fromWind S t (fun j _ => v j) 0) := by
  have key : (repeatReshape (entry v) : g.Fld) = fun j _ => v j := by
    funext j i
    have hi : 0 < g.nlon := i.pos
    have : (j.val * g.nlon + i.val) / g.nlon = j.val := by
      rw [mul_comm, Nat.mul_add_div hi, Nat.div_eq_of_lt i.isLt, add_zero]
    simp only [repeatReshape, this, entry, dif_pos j.isLt]
  constructor
  · unfold zonallySymmetric profile
    simp only [if_true, Bind.bind, Except.bind, pure, Except.pure, key]
  · unfold zonallySymmetric profile
    simp only [if_true, Bind.bind, Except.bind, pure, Except.pure, key]

/-- C60: errors of `zonally_symmetric`: both or none of the profiles, wrong dimensions. -/
theorem C60_errors (t : τ) (a b : Arr ℝ) (ha : a.shape ≠ [g.nlat]) :
    zonallySymmetric S t (some a) (some b) = .error .valueError ∧
    zonallySymmetric S t none none = .error .valueError ∧
    zonallySymmetric S t (some a) none = .error .assertionError ∧
    zonallySymmetric S t none (some a) = .error .assertionError := by
  have hp : profile g a = .error .assertionError := by
    cases a with
    | d1 n v =>
      have : n ≠ g.nlat := fun h => ha (congrArg (fun k => [k]) h)
      simp [profile, this]
    | d0 _ => rfl
    | d2 _ _ _ => rfl
    | nd _ => rfl
  refine ⟨rfl, rfl, ?_, ?_⟩ <;> simp [zonallySymmetric, hp, Bind.bind, Except.bind]

/-- Non-vacuity of C60: valid grid, lawful transform; an array of wrong shape. -/
example : grid30.Valid ∧ Spharm.Lawful sph30 ∧ (Arr.d0 (0 : ℝ)).shape ≠ [grid30.nlat] :=
  ⟨grid30_valid, sph30_lawful, by simp [Arr.shape]⟩

end Barotropic
