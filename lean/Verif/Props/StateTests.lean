import Verif.Props.State
import Verif.Props.Init
import Verif.Lemmas.SpharmWave

/-!
# C144: the tests of conversions between wind, vorticity and PV (tests/test_state.py:9-68)

With arbitrary meridional profiles and zonal wavenumbers, on every grid. The tests use wavenumbers 2 and 3.
-/

namespace Barotropic
open Spharm Grid

variable {g : Grid ℝ} {τ : Type}

/-- The field `A(φ) sin(M λ + α)` -/
noncomputable def waveField (g : Grid ℝ) (A : ℕ → ℝ) (M : ℕ) (α : ℝ) : g.Fld := fun j i => A j * Real.sin (M * g.lam i + α)

/-- Rotations by one column in both directions -/
theorem waveField_rotate (hg : g.Valid) (A : ℕ → ℝ) (M : ℕ) (α : ℝ) :
    rotate 1 (waveField g A M α) + rotate (g.nlon - 1) (waveField g A M α) =
      (2 * Real.cos (2 * Real.pi * M / g.nlon)) • waveField g A M α := by
  have hn : (0 : ℝ) < g.nlon := hg.nlon_pos
  have hlam : ∀ i : ℕ, g.lam i = i * (2 * Real.pi / g.nlon) := by
    intro i
    unfold Grid.lam deg2rad Grid.lon linspaceOpen
    field_simp
    ring
  have hmod : ∀ i : ℕ, Real.sin (M * g.lam (i % g.nlon) + α) = Real.sin (M * g.lam i + α) := by
    intro i
    have e : (i : ℝ) = (i % g.nlon : ℕ) + g.nlon * (i / g.nlon : ℕ) := by exact_mod_cast (Nat.mod_add_div i g.nlon).symm
    have : (M : ℝ) * g.lam i + α = M * g.lam (i % g.nlon) + α + (M * (i / g.nlon) : ℕ) * (2 * Real.pi) := by
      rw [hlam, hlam, e]
      push_cast
      field_simp
      ring
    rw [this, Real.sin_add_nat_mul_two_pi]
  funext j i
  have h1 : (1 : ℕ) ≤ g.nlon := by have := hg.nlon_ge; omega
  simp only [Pi.add_apply, Pi.smul_apply, smul_eq_mul, rotate, waveField]
  rw [hmod, hmod, hlam, hlam, hlam, ← mul_add]
  push_cast [Nat.cast_sub h1]
  have a1 : (M : ℝ) * ((i + 1) * (2 * Real.pi / g.nlon)) + α = (M * (i * (2 * Real.pi / g.nlon)) + α) + 2 * Real.pi * M / g.nlon := by
    field_simp
    ring
  have a2 : (M : ℝ) * ((i + (g.nlon - 1)) * (2 * Real.pi / g.nlon)) + α =
      (M * (i * (2 * Real.pi / g.nlon)) + α) - 2 * Real.pi * M / g.nlon + M * (2 * Real.pi) := by
    field_simp
    ring
  rw [a1, a2, Real.sin_add_nat_mul_two_pi, Real.sin_add, Real.sin_sub]
  ring

theorem exp_pair (n m : ℕ) (hn : 1 ≤ n) :
    Complex.exp (2 * Real.pi * Complex.I * (m * (1 : ℕ) / n)) + Complex.exp (2 * Real.pi * Complex.I * (m * (n - 1 : ℕ) / n)) =
      ((2 * Real.cos (2 * Real.pi * m / n) : ℝ) : ℂ) := by
  have hn' : (n : ℂ) ≠ 0 := by exact_mod_cast (by omega : n ≠ 0)
  have e2 : (2 * Real.pi * Complex.I * (m * (n - 1 : ℕ) / n) : ℂ) = -(2 * Real.pi * m / n) * Complex.I + m * (2 * Real.pi * Complex.I) := by
    push_cast [Nat.cast_sub hn]
    field_simp
    ring
  have e1 : (2 * Real.pi * Complex.I * (m * (1 : ℕ) / n) : ℂ) = (2 * Real.pi * m / n) * Complex.I := by
    push_cast
    field_simp
  rw [e1, e2, Complex.exp_add, Complex.exp_nat_mul_two_pi_mul_I, mul_one]
  push_cast
  rw [Complex.two_cos]

/-- Coefficients of a wave: those whose cosine differs vanish. -/
theorem waveField_modes {S : g.Sph} (hS : Lawful S) (hg : g.Valid) (A : ℕ → ℝ) (M : ℕ) (α : ℝ) (k : Fin (nspec g.ntrunc))
    (hk : Real.cos (2 * Real.pi * specM k / g.nlon) ≠ Real.cos (2 * Real.pi * M / g.nlon)) : S.grdtospec (waveField g A M α) k = 0 := by
  have h := congrArg (fun f => S.grdtospec f k) (waveField_rotate hg A M α)
  simp only [hS.lin.grdtospec_add, hS.lin.grdtospec_smul, hS.rot.grdtospec_rotate, Pi.add_apply, Pi.smul_apply, phaseShift] at h
  rw [← add_mul, exp_pair _ _ (by have := hg.nlon_ge; omega), Complex.real_smul] at h
  have h2 : (((2 * Real.cos (2 * Real.pi * specM k / g.nlon) - 2 * Real.cos (2 * Real.pi * M / g.nlon) : ℝ)) : ℂ) *
      S.grdtospec (waveField g A M α) k = 0 := by
    rw [Complex.ofReal_sub, sub_mul, h, sub_self]
  rcases mul_eq_zero.mp h2 with h3 | h3
  · exfalso
    apply hk
    have : (2 * Real.cos (2 * Real.pi * specM k / g.nlon) - 2 * Real.cos (2 * Real.pi * M / g.nlon) : ℝ) = 0 := by exact_mod_cast h3
    linarith
  · exact h3

theorem cos_nyquist {n m : ℕ} (hn : 0 < n) (h : 2 * m = n) : Real.cos (2 * Real.pi * m / n) = -1 := by
  have : (n : ℝ) = 2 * m := by rw [← h]; push_cast; ring
  have hm : (m : ℝ) ≠ 0 := by
    have : m ≠ 0 := by omega
    exact_mod_cast this
  rw [this, show 2 * Real.pi * m / (2 * m) = Real.pi by field_simp, Real.cos_pi]

theorem cos_between {n M : ℕ} (h0 : 0 < M) (hM : 2 * M < n) :
    Real.cos (2 * Real.pi * M / n) ≠ 1 ∧ Real.cos (2 * Real.pi * M / n) ≠ -1 := by
  have hn : (0 : ℝ) < n := by
    have : 0 < n := by omega
    exact_mod_cast this
  have hM0 : (0 : ℝ) < M := by exact_mod_cast h0
  have hM' : 2 * (M : ℝ) < n := by exact_mod_cast hM
  have hpi := Real.pi_pos
  have a : 0 < 2 * Real.pi * M / n := by positivity
  have b : 2 * Real.pi * M / n < Real.pi := by
    rw [div_lt_iff₀ hn]
    nlinarith
  constructor
  · intro h
    have := Real.injOn_cos ⟨a.le, b.le⟩ ⟨le_rfl, hpi.le⟩ (h.trans Real.cos_zero.symm)
    linarith
  · intro h
    have := Real.injOn_cos ⟨a.le, b.le⟩ ⟨hpi.le, le_rfl⟩ (h.trans Real.cos_pi.symm)
    linarith

theorem resolved_conversions {S : g.Sph} (hS : Lawful S) (t : τ) (s : St τ g) (ht : s.time = t) (ha : S.Adm (s.vorticitySpectral S))
    (h1 : ∀ k, specN k = 0 → s.vorticitySpectral S k = 0) (h2 : ∀ k, 2 * specM k = g.nlon → s.vorticitySpectral S k = 0) :
    St.fromWind S t (s.u S) (s.v S) = s ∧ St.fromVorticity S t (s.vorticity S) = s ∧ St.ofPv S t (s.pv S) = s := by
  obtain ⟨a, b, c, -, -⟩ := C34_constructors_partial S hS s ⟨ha, h2⟩
  rw [ht] at a b c
  exact ⟨c h1, a, b⟩

/-- C144 (tests/test_state.py:11-23): the three ways to construct a motionless state -/
theorem C144_motionless {S : g.Sph} (hS : Lawful S) (t : τ) :
    ∀ s ∈ ([St.fromWind S t 0 0, St.fromVorticity S t 0, St.ofPv S t g.fcor2] : List (St τ g)),
      s.time = t ∧ s.pv S = g.fcor2 ∧ s.u S = 0 ∧ s.v S = 0 ∧ s.vorticity S = 0 ∧ s.streamfunction S = 0 := by
  have e1 : (St.fromWind S t 0 0 : St τ g) = St.ofPv S t g.fcor2 := by
    unfold St.fromWind Grid.vorticity Grid.vorticitySpectral vorticityDivergenceSpectral
    rw [hS.lin.getvrtdiv_zero, toGrid, Prod.fst_zero, hS.lin.spectogrd_zero, add_zero]
  have e2 : (St.fromVorticity S t 0 : St τ g) = St.ofPv S t g.fcor2 := by
    unfold St.fromVorticity
    rw [add_zero]
  intro s hs
  have h : s = St.ofPv S t g.fcor2 := by
    simp only [List.mem_cons, List.not_mem_nil, or_false] at hs
    rcases hs with rfl | rfl | rfl
    · exact e1
    · exact e2
    · rfl
  subst h
  obtain ⟨a, b, c, -⟩ := C60_motionless hS t
  refine ⟨rfl, c, a, b, ?_, ?_⟩
  · change St.pv S (Init.motionless S t) - g.fcor2 = 0
    rw [c, sub_self]
  · have hz : (St.ofPv S t g.fcor2 : St τ g).vorticitySpectral S = 0 := sub_self _
    have : (solvePoissonSpectral (0 : g.Spc) 0 : g.Spc) = 0 := by
      funext k
      simp [solvePoissonSpectral]
    unfold St.streamfunction
    rw [hz, this, toGrid, hS.lin.spectogrd_zero]

/-- C144 (tests/test_state.py:25-57): PV and vorticity of a wave on any profile are converted to the wind and back. -/
theorem C144_conversions {S : g.Sph} (hS : Lawful S) (hg : g.Valid) (t : τ) (A : ℕ → ℝ) (M : ℕ) (α : ℝ) (h0 : 0 < M) (hM : 2 * M < g.nlon) :
    ∀ s ∈ ([St.ofPv S t (g.fcor2 + waveField g A M α), St.fromVorticity S t (waveField g A M α)] : List (St τ g)),
      St.fromWind S t (s.u S) (s.v S) = s ∧ St.fromVorticity S t (s.vorticity S) = s ∧ St.ofPv S t (s.pv S) = s := by
  intro s hs
  have hsq : s = St.ofPv S t (g.fcor2 + waveField g A M α) := by
    simp only [List.mem_cons, List.not_mem_nil, or_false] at hs
    rcases hs with rfl | rfl <;> rfl
  subst hsq
  have hvs : (St.ofPv S t (g.fcor2 + waveField g A M α) : St τ g).vorticitySpectral S = S.grdtospec (waveField g A M α) := by
    unfold St.vorticitySpectral St.ofPv fcor2Spectral
    simp only [toSpectral]
    rw [hS.lin.grdtospec_add, add_sub_cancel_left]
  obtain ⟨c1, c2⟩ := cos_between h0 hM
  refine resolved_conversions hS t _ rfl ?_ (fun k hk => ?_) fun k hk => ?_
  · rw [hvs]
    exact hS.rt.adm_analysis _
  · rw [hvs]
    refine waveField_modes hS hg A M α k ?_
    have : specM k = 0 := by have := specM_le_specN k; omega
    rw [this]
    simpa using c1.symm
  · rw [hvs]
    refine waveField_modes hS hg A M α k ?_
    rw [cos_nyquist (by have := hg.nlon_ge; omega) hk]
    exact c2.symm

/-- C144 (tests/test_state.py:59-68): a zonal wind with any profile and a wave of the meridional wind whose vorticity survives a synthesis -/
theorem C144_wind_conversions {S : g.Sph} (hS : Lawful S) (hg : g.Valid) (t : τ) (A B : ℕ → ℝ) (M : ℕ) (α : ℝ) (h0 : 0 < M) (hM : 2 * M < g.nlon)
    (hA : S.Adm (S.getvrtdivspec (fun j _ => A j) (waveField g B M α)).1) :
    let s : St τ g := St.fromWind S t (fun j _ => A j) (waveField g B M α)
    St.ofPv S t (s.pv S) = s ∧ St.fromVorticity S t (s.vorticity S) = s ∧ St.fromWind S t (s.u S) (s.v S) = s := by
  intro s
  have hn : 1 ≤ g.nlon := by have := hg.nlon_ge; omega
  obtain ⟨w, hw⟩ : ∃ w, w = (S.getvrtdivspec (fun j _ => A j) (waveField g B M α)).1 := ⟨_, rfl⟩
  have hvs : s.vorticitySpectral S = w := by
    unfold St.vorticitySpectral s St.fromWind St.ofPv fcor2Spectral Grid.vorticity Grid.vorticitySpectral vorticityDivergenceSpectral
    simp only [toSpectral, toGrid]
    rw [hS.lin.grdtospec_add, add_sub_cancel_left, hw]
    exact hA
  rw [← hw] at hA
  have hmean : ∀ k, specN k = 0 → w k = 0 := fun k hk => by rw [hw]; exact hS.wind.vrt_mean _ _ k hk
  have hnyq : ∀ k, 2 * specM k = g.nlon → w k = 0 := by
    intro k hk
    obtain ⟨-, c2⟩ := cos_between h0 hM
    obtain ⟨U, hU⟩ : ∃ U : g.Fld, U = fun (j : Fin g.nlat) _ => A j := ⟨_, rfl⟩
    obtain ⟨V, hV⟩ : ∃ V, V = waveField g B M α := ⟨_, rfl⟩
    have hrU : ∀ d, rotate d U = U := fun d => by rw [hU]; rfl
    have hrV : rotate 1 V + rotate (g.nlon - 1) V = (2 * Real.cos (2 * Real.pi * M / g.nlon)) • V := by
      rw [hV]; exact waveField_rotate hg B M α
    have hc := cos_nyquist (by omega) hk
    have hsplit : S.getvrtdivspec U V = S.getvrtdivspec U 0 + S.getvrtdivspec 0 V := by
      rw [← hS.lin.getvrtdiv_add, add_zero, zero_add]
    have hr0 : ∀ d, rotate d (0 : g.Fld) = 0 := fun d => rfl
    have key : ∀ d a b, (S.getvrtdivspec (rotate d a) (rotate d b)).1 k =
        Complex.exp (2 * Real.pi * Complex.I * (specM k * d / g.nlon)) * (S.getvrtdivspec a b).1 k := by
      intro d a b
      rw [hS.rot.getvrtdiv_rotate]
      rfl
    have pair := exp_pair g.nlon (specM k) hn
    rw [hc] at pair
    have z1 : (S.getvrtdivspec U 0).1 k = 0 := by
      have k1 := key 1 U 0
      have k2 := key (g.nlon - 1) U 0
      rw [hrU, hr0] at k1 k2
      have : (S.getvrtdivspec U 0).1 k + (S.getvrtdivspec U 0).1 k = ((2 * (-1) : ℝ) : ℂ) * (S.getvrtdivspec U 0).1 k := by
        rw [← pair, add_mul, ← k1, ← k2]
      have h4 : (4 : ℂ) * (S.getvrtdivspec U 0).1 k = 0 := by
        push_cast at this
        linear_combination this
      exact (mul_eq_zero.mp h4).resolve_left (by norm_num)
    have z2 : (S.getvrtdivspec 0 V).1 k = 0 := by
      have k1 := key 1 0 V
      have k2 := key (g.nlon - 1) 0 V
      rw [hr0] at k1 k2
      have hsum : S.getvrtdivspec 0 (rotate 1 V) + S.getvrtdivspec 0 (rotate (g.nlon - 1) V) =
          (2 * Real.cos (2 * Real.pi * M / g.nlon)) • S.getvrtdivspec 0 V := by
        rw [← hS.lin.getvrtdiv_add, hrV, add_zero]
        have := hS.lin.getvrtdiv_smul (2 * Real.cos (2 * Real.pi * M / g.nlon)) 0 V
        rwa [smul_zero] at this
      have hs2 := congrArg (fun x : g.Spc × g.Spc => x.1 k) hsum
      simp only [Prod.fst_add, Pi.add_apply, Prod.smul_fst, Pi.smul_apply, Complex.real_smul] at hs2
      rw [k1, k2, ← add_mul, pair] at hs2
      have h3 : (((2 * (-1) - 2 * Real.cos (2 * Real.pi * M / g.nlon) : ℝ)) : ℂ) * (S.getvrtdivspec 0 V).1 k = 0 := by
        rw [Complex.ofReal_sub, sub_mul, hs2, sub_self]
      refine (mul_eq_zero.mp h3).resolve_left fun h => c2 ?_
      have : (2 * (-1) - 2 * Real.cos (2 * Real.pi * M / g.nlon) : ℝ) = 0 := by exact_mod_cast h
      linarith
    rw [hw, ← hU, ← hV, hsplit, Prod.fst_add, Pi.add_apply, z1, z2, add_zero]
  obtain ⟨a, b, c⟩ := resolved_conversions hS t s rfl (hvs ▸ hA) (fun k hk => by rw [hvs]; exact hmean k hk)
    fun k hk => by rw [hvs]; exact hnyq k hk
  exact ⟨c, b, a⟩

/-- Non-vacuity of C144: a wave of wavenumber 3 on the grid with a spacing of 30° -/
example : ∀ s ∈ ([St.ofPv wave30 () (grid30.fcor2 + waveField grid30 (fun j => j) 3 0)] : List (St Unit grid30)),
    St.fromWind wave30 () (s.u wave30) (s.v wave30) = s := by
  intro s hs
  refine (C144_conversions wave30_lawful grid30_valid () (fun j => (j : ℝ)) 3 0 (by norm_num) ?_ s ?_).1
  · rw [grid30_nlon]; norm_num
  · rw [List.mem_singleton.mp hs]
    exact List.mem_cons_self

/-- Non-vacuity of C144: the vorticity of every wind survives the synthesis of this transform. -/
example : let s : St Unit grid30 := St.fromWind wave30 () (fun j _ => (j : ℝ)) (waveField grid30 (fun j => j) 2 0)
    St.fromWind wave30 () (s.u wave30) (s.v wave30) = s :=
  (C144_wind_conversions wave30_lawful grid30_valid () (fun j => (j : ℝ)) (fun j => (j : ℝ)) 2 0 (by norm_num) (by rw [grid30_nlon]; norm_num)
    (waveSph_adm grid30_valid _ _ _ _)).2.2

end Barotropic
