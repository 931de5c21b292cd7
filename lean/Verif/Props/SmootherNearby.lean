import Verif.Props.KalmanNearby

/-!
# C145 for the smoother
-/

namespace Filterpy

open Matrix Filter Topology Spec

variable {ι : Type} {f : Filter ι} {n m l : ℕ}

/-- A list of arrays approaches another: they have the same length and the entries approach each other. -/
def Spec.ListNear {E : Type} [TopologicalSpace E] (f : Filter ι) (as : List (ι → E)) (bs : List E) : Prop :=
  List.Forall₂ (fun a b => Tendsto a f (𝓝 b)) as bs

/-- An optional list argument approaches another: both absent, or both present and close. -/
inductive Spec.OptListNear {E : Type} [TopologicalSpace E] (f : Filter ι) : Option (List (ι → E)) → Option (List E) → Prop
  | none : OptListNear f none none
  | some {as bs} (h : ListNear f as bs) : OptListNear f (some as) (some bs)

/-- A smoothed entry approaches another. -/
structure Spec.RtsNear (f : Filter ι) (a : ι → KF.RtsOut n) (b : KF.RtsOut n) : Prop where
  x : Tendsto (fun i => (a i).x) f (𝓝 b.x)
  P : Tendsto (fun i => (a i).P) f (𝓝 b.P)
  K : Tendsto (fun i => (a i).K) f (𝓝 b.K)
  Pp : Tendsto (fun i => (a i).Pp) f (𝓝 b.Pp)

theorem rtsStep_near {x : ι → Vec n} {x'} {P F Q : ι → Mat n n} {P' F' Q'} {a : ι → KF.RtsOut n} {b o' : KF.RtsOut n}
    (hx : Tendsto x f (𝓝 x')) (hP : Tendsto P f (𝓝 P')) (hF : Tendsto F f (𝓝 F')) (hQ : Tendsto Q f (𝓝 Q'))
    (ha : RtsNear f a b) (h : KF.rtsStep npInv x' P' F' Q' b = .ok o') :
    ∃ o, (∀ᶠ i in f, KF.rtsStep npInv (x i) (P i) (F i) (Q i) (a i) = .ok (o i)) ∧ RtsNear f o o' := by
  simp only [KF.rtsStep] at h
  have hT := tendsto_transpose hF
  have hPp := (tendsto_mmul (tendsto_mmul hF hP) hT).add hQ
  cases hc : npInv (F' * P' * F'ᵀ + Q') with
  | none => simp only [hc] at h; cases h
  | some I =>
    simp only [hc] at h
    obtain ⟨h1, h2⟩ := npInv_eventually hPp hc
    have hK := tendsto_mmul (tendsto_mmul hP hT) h2
    obtain rfl := Except.ok.inj h
    let K (i : ι) := P i * (F i)ᵀ * (F i * P i * (F i)ᵀ + Q i)⁻¹
    refine ⟨fun i => ⟨x i + K i *ᵥ ((a i).x - F i *ᵥ x i), P i + K i * ((a i).P - (F i * P i * (F i)ᵀ + Q i)) * (K i)ᵀ,
      K i, F i * P i * (F i)ᵀ + Q i⟩, h1.mono fun i hi => by simp only [KF.rtsStep, hi]; rfl, ?_⟩
    exact ⟨hx.add (tendsto_mulVec hK (ha.x.sub (tendsto_mulVec hF hx))),
      hP.add (tendsto_mmul (tendsto_mmul hK (ha.P.sub hPp)) (tendsto_transpose hK)), hK, hPp⟩

theorem rtsLoop_near {es : List (ι → (Vec n × Mat n n) × (Mat n n × Mat n n))}
    {es' : List ((Vec n × Mat n n) × (Mat n n × Mat n n))} (h : ListNear f es es') {out' : List (KF.RtsOut n)}
    (hok : KF.rtsLoop npInv es' = .ok out') :
    ∃ out : List (ι → KF.RtsOut n), (∀ᶠ i in f, KF.rtsLoop npInv (es.map (· i)) = .ok (out.map (· i))) ∧
      List.Forall₂ (RtsNear f) out out' := by
  induction h generalizing out' with
  | nil => obtain rfl := Except.ok.inj hok; exact ⟨[], Eventually.of_forall fun _ => rfl, .nil⟩
  | @cons e e' es es' he hes ih =>
    have h1 := he.fst_nhds.fst_nhds
    have h2 := he.fst_nhds.snd_nhds
    cases hes with
    | nil =>
      obtain rfl := Except.ok.inj hok
      exact ⟨[fun i => ⟨(e i).1.1, (e i).1.2, 0, (e i).1.2⟩], Eventually.of_forall fun _ => rfl,
        .cons ⟨h1, h2, tendsto_const_nhds, h2⟩ .nil⟩
    | @cons g g' gs gs' hg hgs =>
      have h3 := hg.snd_nhds.fst_nhds
      have h4 := hg.snd_nhds.snd_nhds
      simp only [KF.rtsLoop] at hok
      cases ht : KF.rtsLoop npInv (g' :: gs') with
      | error e => rw [ht] at hok; cases hok
      | ok tail =>
        rw [ht] at hok
        obtain ⟨out, k1, k2⟩ := ih ht
        cases k2 with
        | nil =>
          obtain rfl := Except.ok.inj hok
          refine ⟨[], k1.mono fun i hi => ?_, .nil⟩
          simp only [List.map_cons] at hi ⊢
          simp only [KF.rtsLoop, hi]
          rfl
        | @cons a b as bs ka kas =>
          simp only [Bind.bind, Except.bind] at hok
          cases hr : KF.rtsStep npInv e'.1.1 e'.1.2 g'.2.1 g'.2.2 b with
          | error e => rw [hr] at hok; cases hok
          | ok o' =>
            rw [hr] at hok
            obtain rfl := Except.ok.inj hok
            obtain ⟨o, j1, j2⟩ := rtsStep_near h1 h2 h3 h4 ka hr
            refine ⟨o :: a :: as, (k1.and j1).mono fun i hi => ?_, .cons j2 (.cons ka kas)⟩
            have hi1 := hi.1
            simp only [List.map_cons] at hi1 ⊢
            simp only [KF.rtsLoop, hi1, Bind.bind, Except.bind, hi.2]

theorem ListNear.zip {E G : Type} [TopologicalSpace E] [TopologicalSpace G] {as : List (ι → E)} {as' : List E}
    {bs : List (ι → G)} {bs' : List G} (ha : ListNear f as as') (hb : ListNear f bs bs') :
    ListNear f (List.zipWith (fun a b i => (a i, b i)) as bs) (as'.zip bs') := by
  induction ha generalizing bs bs' with
  | nil => cases hb <;> exact .nil
  | cons h _ ih =>
    cases hb with
    | nil => exact .nil
    | cons g gs => exact .cons (h.prodMk_nhds g) (ih gs)

theorem map_zip_apply {E G : Type} (as : List (ι → E)) (bs : List (ι → G)) (i : ι) :
    (List.zipWith (fun a b i => (a i, b i)) as bs).map (· i) = (as.map (· i)).zip (bs.map (· i)) := by
  induction as generalizing bs with
  | nil => rfl
  | cons a as ih =>
    cases bs with
    | nil => rfl
    | cons b bs => simp [ih]

theorem ListNear.replicate {E : Type} [TopologicalSpace E] {a : ι → E} {b : E} (h : Tendsto a f (𝓝 b)) (k : ℕ) :
    ListNear f (List.replicate k a) (List.replicate k b) := by
  induction k with
  | zero => exact .nil
  | succ k ih => exact .cons h ih

theorem OptListNear.getD {E : Type} [TopologicalSpace E] {as : Option (List (ι → E))} {as' : Option (List E)}
    (h : OptListNear f as as') {d d'} (hd : ListNear f d d') : ListNear f (as.getD d) (as'.getD d') := by
  cases h with
  | none => exact hd
  | some h => exact h

/-- **C145 (smoother).** `rts_smoother` depends continuously on the filter's model, the estimates and the models it is
given: if it succeeds, it succeeds for all lists close enough, and the smoothed states, covariances, gains and predicted
covariances approach each other. -/
theorem C145_smoother {s : ι → KF n m l} {t : KF n m l} (hs : KFNear f s t) {Xs : List (ι → Vec n)} {Xs'}
    {Ps : List (ι → Mat n n)} {Ps'} {Fs Qs : Option (List (ι → Mat n n))} {Fs' Qs'} (hX : ListNear f Xs Xs')
    (hP : ListNear f Ps Ps') (hF : OptListNear f Fs Fs') (hQ : OptListNear f Qs Qs') {out' : List (KF.RtsOut n)}
    (h : t.rtsSmoother Xs' Ps' Fs' Qs' = .ok out') :
    ∃ out : List (ι → KF.RtsOut n), (∀ᶠ i in f, (s i).rtsSmoother (Xs.map (· i)) (Ps.map (· i))
      (Fs.map (List.map (· i))) (Qs.map (List.map (· i))) = .ok (out.map (· i))) ∧
      List.Forall₂ (RtsNear f) out out' := by
  have lX := hX.length_eq
  have lP := hP.length_eq
  have dF := OptListNear.getD hF (ListNear.replicate hs.F Xs.length)
  have dQ := OptListNear.getD hQ (ListNear.replicate hs.Q Xs.length)
  have eF (i : ι) : (Fs.map (List.map (· i))).getD (List.replicate Xs.length (s i).F) =
      (Fs.getD (List.replicate Xs.length fun i => (s i).F)).map (· i) := by
    cases Fs with
    | none => simp
    | some F => rfl
  have eQ (i : ι) : (Qs.map (List.map (· i))).getD (List.replicate Xs.length (s i).Q) =
      (Qs.getD (List.replicate Xs.length fun i => (s i).Q)).map (· i) := by
    cases Qs with
    | none => simp
    | some F => rfl
  simp only [KF.rtsSmoother, ← lX] at h
  by_cases h1 : Xs.length ≠ Ps'.length
  · rw [if_pos h1] at h; cases h
  rw [if_neg h1] at h
  have h1' : ¬ Xs.length ≠ Ps.length := by rw [lP]; exact h1
  have lF := dF.length_eq
  have lQ := dQ.length_eq
  by_cases h2 : 2 ≤ Xs.length ∧ ((Fs'.getD (List.replicate Xs.length t.F)).length < Xs.length ∨
      (Qs'.getD (List.replicate Xs.length t.Q)).length < Xs.length)
  · rw [if_pos h2] at h; cases h
  rw [if_neg h2] at h
  rw [← lF, ← lQ] at h2
  by_cases h3 : Xs.length < 2
  · rw [if_pos h3] at h
    have hz := ListNear.zip hX hP
    have hm : ListNear f ((List.zipWith (fun a b i => (a i, b i)) Xs Ps).map fun e i => (e i, ((0 : Mat n n), (0 : Mat n n))))
        ((Xs'.zip Ps').map fun e => (e, (0, 0))) := by
      unfold ListNear at hz ⊢
      rw [List.forall₂_map_left_iff, List.forall₂_map_right_iff]
      exact hz.imp fun a b hab => hab.prodMk_nhds tendsto_const_nhds
    obtain ⟨out, g1, g2⟩ := rtsLoop_near hm h
    refine ⟨out, g1.mono fun i hi => ?_, g2⟩
    simp only [KF.rtsSmoother, List.length_map, eF, eQ]
    rw [if_neg h1', if_neg h2, if_pos h3, ← hi, ← map_zip_apply]
    simp only [List.map_map]
    rfl
  · rw [if_neg h3] at h
    have hz := ListNear.zip (ListNear.zip hX hP) (ListNear.zip dF dQ)
    obtain ⟨out, g1, g2⟩ := rtsLoop_near hz h
    refine ⟨out, g1.mono fun i hi => ?_, g2⟩
    simp only [KF.rtsSmoother, List.length_map, eF, eQ]
    rw [if_neg h1', if_neg h2, if_neg h3, ← hi, ← map_zip_apply, ← map_zip_apply, ← map_zip_apply]

/-- The hypotheses are met by two steps of a scalar random walk. -/
example : ∃ (out : List (ℕ → KF.RtsOut 1)) (out' : List (KF.RtsOut 1)),
    (∀ᶠ i : ℕ in atTop, (KF.fresh 1 1 0).rtsSmoother [fun _ => 1 / (i + 1 : ℝ), 1] [1, 1] = .ok (out.map (· i))) ∧
    List.Forall₂ (RtsNear atTop) out out' ∧ out'.length = 2 := by
  have hd : npInv ((1 : Mat 1 1) * 1 * 1ᵀ + 1) = some ((1 : Mat 1 1) * 1 * 1ᵀ + 1)⁻¹ := by
    have : ((1 : Mat 1 1) * 1 * 1ᵀ + 1).det ≠ 0 := by simp
    simp only [npInv, if_neg this]
  obtain ⟨out', ho, hl⟩ : ∃ out', (KF.fresh 1 1 0).rtsSmoother [0, 1] [1, 1] = .ok out' ∧ out'.length = 2 := by
    simp only [KF.rtsSmoother, KF.fresh, Option.getD, List.length_cons, List.length_nil, List.replicate, List.zip_cons_cons,
      List.zip_nil_left]
    norm_num
    simp only [KF.rtsLoop, KF.rtsStep, Bind.bind, Except.bind, hd]
    exact ⟨_, rfl, rfl⟩
  have h0 : Tendsto (fun i : ℕ => (fun _ => 1 / (i + 1 : ℝ) : Vec 1)) atTop (𝓝 0) :=
    tendsto_pi_nhds.2 fun _ => tendsto_one_div_add_atTop_nhds_zero_nat (𝕜 := ℝ)
  obtain ⟨out, h1, h2⟩ := C145_smoother (KFNear.refl (KF.fresh 1 1 0) rfl)
    (Xs := [fun i : ℕ => fun _ => 1 / (i + 1 : ℝ), fun _ => 1]) (Ps := [fun _ => 1, fun _ => 1])
    (.cons h0 (.cons tendsto_const_nhds .nil)) (.cons tendsto_const_nhds (.cons tendsto_const_nhds .nil)) .none .none ho
  exact ⟨out, out', h1, h2, hl⟩

end Filterpy
