import Verif.Spec.World
import Verif.Lemmas.State
import Verif.Props.Orography

/-! # Invariant of the shared objects -/

namespace Barotropic
variable {H : RhsHeap} {hash : RhsHeap.KeyHash} {α β : Type}

/-- Contents of all state objects -/
abbrev Contents (H : RhsHeap) := ∀ i, List (St PyTime (H.grid i))

/-- Later contents: nothing is removed or changed. -/
def Contents.Le (σ σ' : Contents H) : Prop := ∀ i, σ i <+: σ' i

theorem Contents.Le.refl (σ : Contents H) : σ.Le σ := fun _ => List.prefix_rfl
theorem Contents.Le.trans {σ σ' σ'' : Contents H} (h : σ.Le σ') (h' : σ'.Le σ'') : σ.Le σ'' :=
  fun i => (h i).trans (h' i)

theorem Contents.Le.get {σ σ' : Contents H} (h : σ.Le σ') {i k : ℕ} {s : St PyTime (H.grid i)}
    (hk : (σ i)[k]? = some s) : (σ' i)[k]? = some s := by
  obtain ⟨t, ht⟩ := h i
  rw [← ht, List.getElem?_append_left (List.getElem?_eq_some_iff.mp hk).1]; exact hk

/-- The caches of all state objects and the gradient cache hold the right values. -/
structure WInv (σ : Contents H) (w : World H) : Prop where
  states : ∀ i, List.Forall₂ (CacheInv (H.sph i)) (σ i) (w.states i)
  cache : GradCacheInv H w.cache

/-- From contents `σ`, the computation keeps the invariant with later contents that are related to its result by `R`. -/
def Sim (σ : Contents H) (m : Wd H α) (R : Contents H → Except PyErr α → Prop) : Prop :=
  ∀ w, WInv σ w → ∃ σ', σ.Le σ' ∧ WInv σ' (m w).2 ∧ R σ' (m w).1

theorem wd_bind (m : Wd H α) (f : α → Wd H β) (w : World H) :
    (m >>= f) w = match m w with
      | (.ok a, w') => f a w'
      | (.error e, w') => (.error e, w') := rfl

theorem except_ok_bind (a : α) (f : α → Except PyErr β) : (Except.ok a >>= f) = f a := rfl

theorem Sim.bind {σ : Contents H} {m : Wd H α} {f : α → Wd H β} {R : Contents H → Except PyErr α → Prop}
    {R' : Contents H → Except PyErr β → Prop} (h1 : Sim σ m R)
    (he : ∀ σ' e, σ.Le σ' → R σ' (.error e) → R' σ' (.error e))
    (h2 : ∀ σ' a, σ.Le σ' → R σ' (.ok a) → Sim σ' (f a) R') : Sim σ (m >>= f) R' := by
  intro w hw
  obtain ⟨σ', l1, i1, r1⟩ := h1 w hw
  rw [wd_bind]
  rcases hm : m w with ⟨r, w'⟩
  rw [hm] at i1 r1
  cases r with
  | error e => exact ⟨σ', l1, i1, he σ' e l1 r1⟩
  | ok a =>
    obtain ⟨σ'', l2, i2, r2⟩ := h2 σ' a l1 r1 w' i1
    exact ⟨σ'', l1.trans l2, i2, r2⟩

theorem Sim.mono {σ : Contents H} {m : Wd H α} {R R' : Contents H → Except PyErr α → Prop} (h : Sim σ m R)
    (hR : ∀ σ' r, σ.Le σ' → R σ' r → R' σ' r) : Sim σ m R' := by
  intro w hw
  obtain ⟨σ', l, i, r⟩ := h w hw
  exact ⟨σ', l, i, hR σ' _ l r⟩

theorem Sim.pure {σ : Contents H} {a : α} {R : Contents H → Except PyErr α → Prop} (h : R σ (.ok a)) :
    Sim σ (Pure.pure a : Wd H α) R := fun _ hw => ⟨σ, .refl σ, hw, h⟩

theorem Sim.lift {σ : Contents H} {r : Except PyErr α} {R : Contents H → Except PyErr α → Prop} (h : R σ r) :
    Sim σ (Wd.lift r : Wd H α) R := fun _ hw => ⟨σ, .refl σ, hw, h⟩

/-- The computation returns `r` and creates nothing. -/
abbrev Gives (σ : Contents H) (m : Wd H α) (r : Except PyErr α) : Prop := Sim σ m fun σ' x => σ' = σ ∧ x = r

theorem Gives.bind {σ : Contents H} {m : Wd H α} {f : α → Wd H β} {a : α} {R : Contents H → Except PyErr β → Prop}
    (h1 : Gives σ m (.ok a)) (h2 : Sim σ (f a) R) : Sim σ (m >>= f) R := by
  refine Sim.bind h1 (fun σ' e _ h => by cases h.2) fun σ' b _ h => ?_
  obtain ⟨rfl, h⟩ := h
  cases h; exact h2

theorem Gives.bind_error {σ : Contents H} {m : Wd H α} {f : α → Wd H β} {e : PyErr}
    (h1 : Gives σ m (.error e)) : Gives σ (m >>= f) (.error e) := by
  refine Sim.bind h1 (fun σ' e' _ h => ⟨h.1, ?_⟩) fun σ' b _ h => by cases h.2
  cases h.2; rfl

theorem Gives.pure {σ : Contents H} (a : α) : Gives σ (Pure.pure a : Wd H α) (.ok a) := Sim.pure ⟨rfl, rfl⟩
theorem Gives.lift {σ : Contents H} (r : Except PyErr α) : Gives σ (Wd.lift r : Wd H α) r := Sim.lift ⟨rfl, rfl⟩

theorem Gives.attempt {σ : Contents H} {m : Wd H α} {r : Except PyErr α} (h : Gives σ m r) :
    Gives σ (Wd.attempt m) (.ok r) := by
  intro w hw
  obtain ⟨σ', l, i, e, r⟩ := h w hw
  exact ⟨σ', l, i, e, congrArg _ r⟩

theorem forall₂_get {R : α → β → Prop} {l : List α} {l' : List β} (h : List.Forall₂ R l l') {k : ℕ} {a : α}
    (ha : l[k]? = some a) : ∃ b, l'[k]? = some b ∧ R a b := by
  induction h generalizing k with
  | nil => simp at ha
  | cons hr _ ih => cases k with
    | zero => simp only [List.getElem?_cons_zero, Option.some.injEq] at ha ⊢; subst ha; exact ⟨_, rfl, hr⟩
    | succ k => simp only [List.getElem?_cons_succ] at ha ⊢; exact ih ha

theorem forall₂_get' {R : α → β → Prop} {l : List α} {l' : List β} (h : List.Forall₂ R l l') {k : ℕ} {b : β}
    (hb : l'[k]? = some b) : ∃ a, l[k]? = some a ∧ R a b := by
  induction h generalizing k with
  | nil => simp at hb
  | cons hr _ ih => cases k with
    | zero => simp only [List.getElem?_cons_zero, Option.some.injEq] at hb ⊢; subst hb; exact ⟨_, rfl, hr⟩
    | succ k => simp only [List.getElem?_cons_succ] at hb ⊢; exact ih hb

theorem forall₂_set {R : α → β → Prop} {l : List α} {l' : List β} (h : List.Forall₂ R l l') {k : ℕ} {a : α} {b : β}
    (ha : l[k]? = some a) (hb : R a b) : List.Forall₂ R l (l'.set k b) := by
  induction h generalizing k with
  | nil => exact .nil
  | cons hr hl ih => cases k with
    | zero => simp only [List.getElem?_cons_zero, Option.some.injEq] at ha; subst ha; exact .cons hb hl
    | succ k => simp only [List.getElem?_cons_succ] at ha; exact .cons hr (ih ha)

/-- Reading from an existing state object -/
theorem gives_rd {σ : Contents H} {i k : ℕ} {s : St PyTime (H.grid i)} (hk : (σ i)[k]? = some s)
    {m : Rd PyTime (H.grid i) α} {r : Except PyErr α} (hm : Yields (H.sph i) s m r) : Gives σ (Wd.rd i k m) r := by
  intro w hw
  obtain ⟨o, ho, ih⟩ := forall₂_get (hw.states i) hk
  obtain ⟨o', e, ih'⟩ := hm o ih
  refine ⟨σ, .refl σ, ?_, rfl, ?_⟩
  · unfold Wd.rd
    rw [ho]
    refine ⟨fun i' => ?_, hw.cache⟩
    by_cases h : i' = i
    · subst h
      simp only [Function.update_self, e]
      exact forall₂_set (hw.states i') hk ih'
    · simp only [Function.update_of_ne h]; exact hw.states i'
  · unfold Wd.rd
    rw [ho]; simp only [e]

/-- Attribute access `state.time` (through the object) -/
theorem sim_get {σ : Contents H} {i k : ℕ} {s : St PyTime (H.grid i)} (hk : (σ i)[k]? = some s)
    {f : StateObj PyTime (H.grid i) → Wd H β} {R : Contents H → Except PyErr β → Prop}
    (h : ∀ o : StateObj PyTime (H.grid i), o.time = s.time → Sim σ (f o) R) : Sim σ (Wd.rd i k Rd.get >>= f) R := by
  intro w hw
  obtain ⟨o, ho, ih⟩ := forall₂_get (hw.states i) hk
  have hg : Wd.rd i k (Rd.get : Rd PyTime (H.grid i) _) w =
      (.ok o, { w with states := Function.update w.states i ((w.states i).set k o) }) := by
    unfold Wd.rd
    rw [ho]; rfl
  have he : (w.states i).set k o = w.states i := by
    obtain ⟨hlt, he⟩ := List.getElem?_eq_some_iff.mp ho
    subst he
    exact List.set_getElem_self hlt
  rw [he, Function.update_eq_self] at hg
  rw [wd_bind, hg]
  exact h o ih.time w hw

theorem cacheInv_new (S : (g : Grid ℝ).Sph) {τ : Type} (s : St τ g) :
    CacheInv S s { time := s.time, pvSpectral := some s.q } :=
  ⟨rfl, rfl, .inl rfl, .inl rfl, .inl rfl, .inl rfl, .inl rfl, .inl rfl⟩

/-- contents with one more state -/
def Contents.add (σ : Contents H) (i : ℕ) (s : St PyTime (H.grid i)) : Contents H :=
  Function.update σ i (σ i ++ [s])

theorem Contents.le_add (σ : Contents H) (i : ℕ) (s : St PyTime (H.grid i)) : σ.Le (σ.add i s) := by
  intro i'
  unfold Contents.add
  by_cases h : i' = i
  · subst h; rw [Function.update_self]; exact List.prefix_append _ _
  · rw [Function.update_of_ne h]

theorem sim_alloc {σ : Contents H} {i : ℕ} (t : PyTime) (q : (H.grid i).Spc) :
    Sim σ (Wd.alloc i { time := t, pvSpectral := some q } : Wd H ℕ)
      fun σ' r => ∃ k, r = .ok k ∧ (σ' i)[k]? = some ⟨t, q⟩ := by
  intro w hw
  let s : St PyTime (H.grid i) := ⟨t, q⟩
  refine ⟨σ.add i s, σ.le_add i s, ⟨fun i' => ?_, hw.cache⟩, (w.states i).length, rfl, ?_⟩
  · unfold Wd.alloc Contents.add
    by_cases h : i' = i
    · subst h
      simp only [Function.update_self]
      exact List.rel_append (hw.states i') (.cons (cacheInv_new _ s) .nil)
    · simp only [Function.update_of_ne h]; exact hw.states i'
  · unfold Contents.add
    rw [Function.update_self, ← (hw.states i).length_eq]
    simp [s]

/-! ## Forcing -/

theorem gives_gradient (hH : H.Standard) (hcol : H.NoCollision hash) (σ : Contents H) (t i : ℕ) :
    Gives σ (Wd.gradient hash t i) (H.fresh (t, i)) := by
  intro w hw
  refine ⟨σ, .refl σ, ⟨hw.states, cachedGradient_inv H hash (t, i) w.cache hw.cache⟩, rfl, ?_⟩
  change (H.cachedGradient hash (t, i) w.cache).1 = _
  rcases cachedGradient_value H hash (t, i) w.cache hw.cache with h | ⟨j, h1, h2, h3⟩
  · exact h
  · rw [h3]; exact fresh_congr H hH t j i (hcol t j i h1 h2)

theorem gives_prog {σ : Contents H} {i k : ℕ} {s : St PyTime (H.grid i)} (hk : (σ i)[k]? = some s)
    (f : Prog (H.grid i)) : Gives σ (f.exec i k) (f.value (H.sph i) s) := by
  induction f with
  | ret r => exact Gives.lift r
  | read p c ih =>
    unfold Prog.exec Prog.value
    exact (gives_rd hk (yields_read p)).attempt.bind (ih _)

theorem gives_wind {σ : Contents H} {i k : ℕ} {s : St PyTime (H.grid i)} (hk : (σ i)[k]? = some s) (o : Orog) :
    Gives σ (o.windW i k) (.ok (o.getWind (H.sph i) s)) := by
  unfold Orog.windW Orog.getWind
  cases o.wind with
  | act f => exact (gives_rd hk yields_u).bind ((gives_rd hk yields_v).bind (Gives.pure _))
  | zon f => exact (gives_rd hk yields_u).bind (Gives.pure _)
  | sbr f => exact Gives.pure _

theorem asFld_self (g : Grid ℝ) (f : g.Fld) : (Arr.d2 g.nlat g.nlon f).asFld g = some f := by
  simp [Arr.asFld]

theorem gives_orog (hH : H.Standard) (hcol : H.NoCollision hash) {σ : Contents H} {i k : ℕ}
    {s : St PyTime (H.grid i)} (hk : (σ i)[k]? = some s) (t : ℕ) :
    Gives σ (Orog.callW hash i t k) (((H.orog t).force (H.sph i) s).map .fld) := by
  unfold Orog.callW
  refine (gives_wind hk _).bind ?_
  have hg := gives_gradient hH hcol σ t i
  unfold Orog.force
  unfold RhsHeap.fresh at hg
  cases hgr : (H.orog t).gradient (H.sph i) with
  | error e =>
    simp only [hgr] at hg
    exact hg.bind_error
  | ok xy =>
    obtain ⟨x, y⟩ := xy
    simp only [hgr] at hg
    refine hg.bind ?_
    simp only [asFld_self]
    exact Gives.pure _

theorem gives_forcing (hH : H.Standard) (hcol : H.NoCollision hash) {σ : Contents H} {i k : ℕ}
    {s : St PyTime (H.grid i)} (hk : (σ i)[k]? = some s) (f : Forcing (H.grid i)) :
    Gives σ (f.callW hash i k) ((f.term H.orog (H.sph i)).call s) := by
  induction f with
  | number x => exact Gives.lift _
  | func f => exact gives_prog hk f
  | switch tend =>
    unfold Forcing.callW
    refine sim_get hk fun o ho => ?_
    rw [ho]
    simp only [Forcing.term, Term.timedOffSwitch, Term.call]
    cases s.time.le tend with
    | error e => exact (Gives.lift (.error e)).bind_error
    | ok b =>
      refine (Gives.lift (.ok b)).bind ?_
      cases b <;> exact Gives.pure _
  | relaxation rate ref =>
    unfold Forcing.callW
    exact (gives_rd hk yields_pv).bind (Gives.pure _)
  | orography t => exact gives_orog hH hcol hk t
  | sum a b iha ihb =>
    unfold Forcing.callW
    simp only [Forcing.term, Term.call]
    cases ha : (a.term H.orog (H.sph i)).call s with
    | error e => rw [ha] at iha; exact iha.bind_error
    | ok x =>
      rw [ha] at iha
      refine iha.bind ?_
      cases hb : (b.term H.orog (H.sph i)).call s with
      | error e => rw [hb] at ihb; exact ihb.bind_error
      | ok y => rw [hb] at ihb; exact ihb.bind (Gives.pure _)
  | prod a b iha ihb =>
    unfold Forcing.callW
    simp only [Forcing.term, Term.call]
    cases ha : (a.term H.orog (H.sph i)).call s with
    | error e => rw [ha] at iha; exact iha.bind_error
    | ok x =>
      rw [ha] at iha
      refine iha.bind ?_
      cases hb : (b.term H.orog (H.sph i)).call s with
      | error e => rw [hb] at ihb; exact ihb.bind_error
      | ok y => rw [hb] at ihb; exact ihb.bind (Gives.pure _)

/-! ## Steps -/

theorem yields_flux {g : Grid ℝ} {S : g.Sph} {τ : Type} {s : St τ g} :
    Yields S s (StateObj.readPvFlux S) (.ok (s.pvFluxSpectral S)) :=
  yields_pv.bind (yields_u.bind (yields_pv.bind (yields_v.bind (Yields.pure _))))

theorem gives_tendency (hH : H.Standard) (hcol : H.NoCollision hash) {σ : Contents H} {i k : ℕ}
    {s : St PyTime (H.grid i)} (hk : (σ i)[k]? = some s) (M : WModel (H.grid i)) :
    Gives σ (M.tendencyW hash i k) ((M.isolated H.orog (H.sph i)).tendency (H.sph i) s) := by
  unfold WModel.tendencyW BModel.tendency WModel.isolated
  refine (gives_rd hk yields_flux).bind ?_
  cases M.rhs with
  | none => exact Gives.pure _
  | some f =>
    have hf := gives_forcing hH hcol hk f
    simp only [Option.map_some, Term.toRhs]
    cases hr : (f.term H.orog (H.sph i)).call s with
    | error e => rw [hr] at hf; exact hf.bind_error
    | ok v =>
      rw [hr] at hf
      refine hf.bind ?_
      cases v with
      | num x => exact Gives.lift _
      | fld r => exact Gives.pure _

theorem diffuse_eq {g : Grid ℝ} (S : g.Sph) (orog : ℕ → Orog) (M : WModel g) (dt : ℝ) (q : g.Spc) :
    M.diffuse S dt q = (M.isolated orog S).applyDiffusion S dt q := by
  unfold WModel.diffuse BModel.applyDiffusion WModel.isolated
  cases M.diffusionBg <;> rfl

/-- numbers of states stand for contents -/
def At (σ : Contents H) (i : ℕ) (k : ℕ) (s : St PyTime (H.grid i)) : Prop := (σ i)[k]? = some s

theorem At.mono {σ σ' : Contents H} (h : σ.Le σ') {i k : ℕ} {s : St PyTime (H.grid i)} (hk : At σ i k s) : At σ' i k s :=
  h.get hk

theorem At.mono_list {σ σ' : Contents H} (h : σ.Le σ') {i : ℕ} {ks : List ℕ} {ss : List (St PyTime (H.grid i))}
    (hk : List.Forall₂ (At σ i) ks ss) : List.Forall₂ (At σ' i) ks ss :=
  hk.imp fun _ _ => At.mono h

/-- the results agree -/
def Same (R : α → β → Prop) : Except PyErr α → Except PyErr β → Prop
  | .error e, .error e' => e = e'
  | .ok a, .ok b => R a b
  | _, _ => False

theorem sim_euler (hH : H.Standard) (hcol : H.NoCollision hash) {σ : Contents H} {i k : ℕ}
    {s : St PyTime (H.grid i)} (hk : (σ i)[k]? = some s) (M : WModel (H.grid i)) (dt : PyDelta) :
    Sim σ (M.eulerW hash i k dt) fun σ' r => Same (At σ' i) r ((M.isolated H.orog (H.sph i)).euler (H.sph i) s dt) := by
  unfold WModel.eulerW BModel.euler
  refine (gives_rd hk yields_pvSpectral).bind ?_
  have ht := gives_tendency hH hcol hk M
  cases htd : (M.isolated H.orog (H.sph i)).tendency (H.sph i) s with
  | error e =>
    rw [htd] at ht
    exact ht.bind_error.mono fun σ' r _ h => by rw [h.2]; rfl
  | ok td =>
    rw [htd] at ht
    refine ht.bind (sim_get hk fun o ho => ?_)
    rw [ho, diffuse_eq _ H.orog]
    cases hadd : s.time.add dt with
    | error e => exact (Gives.lift (.error e)).bind_error.mono fun σ' r _ h => by rw [h.2]; rfl
    | ok t =>
      refine (Gives.lift (.ok t)).bind ?_
      refine (sim_alloc t _).mono fun σ' r _ h => ?_
      obtain ⟨k', rfl, hk'⟩ := h
      exact hk'

theorem sim_leapfrog (hH : H.Standard) (hcol : H.NoCollision hash) {σ : Contents H} {i k l : ℕ}
    {old now : St PyTime (H.grid i)} (hk : (σ i)[k]? = some old) (hl : (σ i)[l]? = some now) (M : WModel (H.grid i))
    (filter : ℝ) :
    Sim σ (M.leapfrogW hash i k l filter) fun σ' r =>
      Same (fun a b => At σ' i a.1 b.1 ∧ At σ' i a.2 b.2) r ((M.isolated H.orog (H.sph i)).leapfrog (H.sph i) old now filter) := by
  unfold WModel.leapfrogW BModel.leapfrog
  refine sim_get hl fun o ho => sim_get hk fun o' ho' => ?_
  rw [ho, ho']
  cases hsub : now.time.sub old.time with
  | error e => exact (Gives.lift (.error e)).bind_error.mono fun σ' r _ h => by rw [h.2]; rfl
  | ok dt =>
    refine (Gives.lift (.ok dt)).bind ?_
    refine (gives_rd hk yields_pvSpectral).bind ?_
    have ht := gives_tendency hH hcol hl M
    cases htd : (M.isolated H.orog (H.sph i)).tendency (H.sph i) now with
    | error e =>
      rw [htd] at ht
      refine ht.bind_error.mono fun σ' r _ h => ?_
      rw [h.2]; rfl
    | ok td =>
      rw [htd] at ht
      refine ht.bind (sim_get hl fun o ho => ?_)
      rw [ho, diffuse_eq _ H.orog]
      simp only [except_ok_bind]
      cases hadd : now.time.add dt with
      | error e =>
        refine (Gives.lift (.error e)).bind_error.mono fun σ' r _ h => ?_
        rw [h.2]; rfl
      | ok t =>
        refine (Gives.lift (.ok t)).bind ?_
        refine (sim_alloc t _).bind (fun σ' e _ h => by obtain ⟨_, h, _⟩ := h; cases h) fun σ1 new l1 h => ?_
        obtain ⟨new', he, hnew⟩ := h
        cases he
        refine (gives_rd (l1.get hl) yields_pvSpectral).bind ((gives_rd (l1.get hk) yields_pvSpectral).bind ?_)
        refine sim_get (l1.get hl) fun o ho => ?_
        rw [ho]
        refine (sim_alloc now.time _).bind (fun σ' e _ h => by obtain ⟨_, h, _⟩ := h; cases h) fun σ2 fl l2 h => ?_
        obtain ⟨fl', he, hfl⟩ := h
        cases he
        refine Sim.pure ?_
        exact ⟨hfl, l2.get hnew⟩

/-! ## Runs -/

/-- Outcomes agree, in terms of contents -/
def RetAt (σ : Contents H) (i : ℕ) : Except PyErr WModel.Ret → BModel.Outcome (H.grid i) → Prop
  | .error e, .raised e' => e = e'
  | .ok .outOfFuel, .outOfFuel => True
  | .ok (.early k ks), .early s ss => At σ i k s ∧ List.Forall₂ (At σ i) ks ss
  | .ok (.done k ks), .done s ss => At σ i k s ∧ List.Forall₂ (At σ i) ks ss
  | _, _ => False

theorem sim_loop (hH : H.Standard) (hcol : H.NoCollision hash) {i : ℕ} (M : WModel (H.grid i)) (tend : PyTime) (se : ℝ)
    (fuel : ℕ) : ∀ (σ : Contents H) (k k' : ℕ) (ks : List ℕ) (ts : ℝ) (s s' : St PyTime (H.grid i))
      (ss : List (St PyTime (H.grid i))), At σ i k s → At σ i k' s' → List.Forall₂ (At σ i) ks ss →
      Sim σ (M.loopW hash i tend se fuel k k' ks ts) fun σ' r =>
        RetAt σ' i r ((M.isolated H.orog (H.sph i)).loop (H.sph i) tend se fuel ⟨s, s', ss, ts⟩) := by
  induction fuel with
  | zero => intros; exact Sim.pure trivial
  | succ fuel ih =>
    intro σ k k' ks ts s s' ss hk hk' hks
    unfold WModel.loopW BModel.loop
    refine sim_get hk fun o ho => ?_
    rw [ho]
    dsimp only
    cases s.time.lt tend with
    | error e => exact (Gives.lift (.error e)).bind_error.mono fun σ' r _ h => by rw [h.2]; rfl
    | ok go =>
      refine (Gives.lift (.ok go)).bind ?_
      cases go with
      | false => exact Sim.pure ⟨hk, hks⟩
      | true =>
        refine (sim_leapfrog hH hcol hk hk' M (2 / 10)).bind (fun σ' e _ h => ?_) fun σ1 p l1 h => ?_
        · unfold BModel.body
          dsimp only
          cases hlf : (M.isolated H.orog (H.sph i)).leapfrog (H.sph i) s s' (2 / 10) with
          | ok b => rw [hlf] at h; exact h.elim
          | error e' => rw [hlf] at h; exact h
        · unfold BModel.body
          dsimp only
          cases hlf : (M.isolated H.orog (H.sph i)).leapfrog (H.sph i) s s' (2 / 10) with
          | error e' => rw [hlf] at h; exact h.elim
          | ok b =>
            rw [hlf] at h
            obtain ⟨b1, b2⟩ := b
            obtain ⟨p1, p2⟩ := p
            obtain ⟨h1, h2⟩ := h
            have hks1 := At.mono_list l1 hks
            change Sim σ1 (if se > 0 then _ else _) _
            by_cases hse : se > 0
            · rw [if_pos hse]
              refine sim_get h1 fun o ho => ?_
              rw [ho]
              simp only [except_ok_bind]
              rw [if_pos hse]
              cases b1.time.ge (.num ts) with
              | error e => exact (Gives.lift (.error e)).bind_error.mono fun σ' r _ h => by rw [h.2]; rfl
              | ok save =>
                refine (Gives.lift (.ok save)).bind ?_
                cases save with
                | true => exact ih σ1 p1 p2 _ _ b1 b2 _ h1 h2 (List.rel_append hks1 (.cons h1 .nil))
                | false => exact ih σ1 p1 p2 _ _ b1 b2 _ h1 h2 hks1
            · rw [if_neg hse]
              simp only [except_ok_bind]
              rw [if_neg hse]
              exact ih σ1 p1 p2 _ _ b1 b2 _ h1 h2 hks1

theorem sim_run (hH : H.Standard) (hcol : H.NoCollision hash) {σ : Contents H} {i k : ℕ} {s : St PyTime (H.grid i)}
    (hk : At σ i k s) (M : WModel (H.grid i)) (dt : PyDelta) (tend : PyTime) (se : ℝ) (fuel : ℕ) :
    Sim σ (M.runW hash i k dt tend se fuel) fun σ' r =>
      RetAt σ' i r ((M.isolated H.orog (H.sph i)).run (H.sph i) s dt tend se fuel) := by
  unfold WModel.runW BModel.run
  refine sim_get hk fun o ho => ?_
  rw [ho]
  cases tend.lt s.time with
  | error e => exact (Gives.lift (.error e)).bind_error.mono fun σ' r _ h => by rw [h.2]; rfl
  | ok b =>
    refine (Gives.lift (.ok b)).bind ?_
    cases b with
    | true => exact Sim.pure ⟨hk, .cons hk .nil⟩
    | false =>
      refine (sim_euler hH hcol hk M dt).bind (fun σ' e _ h => ?_) fun σ1 p l1 h => ?_
      · cases hlf : (M.isolated H.orog (H.sph i)).euler (H.sph i) s dt with
        | ok b => rw [hlf] at h; exact h.elim
        | error e' => rw [hlf] at h; exact h
      · cases hlf : (M.isolated H.orog (H.sph i)).euler (H.sph i) s dt with
        | error e' => rw [hlf] at h; exact h.elim
        | ok b =>
          rw [hlf] at h
          exact sim_loop hH hcol M tend se fuel σ1 k p [k] se s b [s] (hk.mono l1) h (.cons (hk.mono l1) .nil)

end Barotropic
