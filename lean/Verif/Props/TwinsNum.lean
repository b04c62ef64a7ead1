import Verif.Props.Twins
import Verif.Props.LabelsSafe
import Verif.Model.Taught
import Verif.Props.LastingSafe

/-! Property C143 with the numbers of the machine. -/
namespace Verif.Overflow

open MathUtils EStep Limits

variable {K V C : ℕ} {F : Format} {D : Device F} {L : LogDevice F} {X : Vec V ℕ} {alpha : Vec K ℝ} {a b : Fin K}

/-- The topics `a` and `b` have the same numbers in `gamma` and `phi`. -/
def Paired (a b : Fin K) (s : Vec K Num × Mat K V Num) : Prop := s.1 a = s.1 b ∧ s.2 a = s.2 b

theorem paired_first (ha : alpha a = alpha b) : Paired a b (nFirst F X alpha) := by
  refine ⟨?_, rfl⟩
  simp only [nFirst, ha]

theorem paired_gamma (ha : alpha a = alpha b) {phi : Mat K V Num} (hp : phi a = phi b) :
    nGamma F X alpha phi a = nGamma F X alpha phi b := by
  simp only [nGamma, nScaled, ha, hp]

theorem paired_normalize {r : ℕ} {v : Vec r Num} {i j : Fin r} (h : v i = v j) : nNormalize D v i = nNormalize D v j := by
  unfold nNormalize
  split_ifs
  · simp only [h]
  · exact h

theorem paired_map {f : Num → Option Num} {r : ℕ} {v e : Vec r Num} {i j : Fin r} (h : mapNum f v = some e) (hv : v i = v j) :
    e i = e j := by
  have h1 := mapNum_some.1 h i
  rw [hv, mapNum_some.1 h j] at h1
  exact (Option.some.inj h1).symm

theorem paired_uPhi {beta : Mat K V Num} (hb : beta a = beta b) {gamma : Vec K Num} (hg : gamma a = gamma b)
    {phi : Mat K V Num} (h : uPhi D beta gamma = some phi) : phi a = phi b := by
  obtain ⟨e, he, rfl⟩ := Option.map_eq_some_iff.1 h
  have := paired_map he (i := a) (j := b) (by simp only [hg])
  funext n
  exact paired_normalize (by simp only [hb, this])

theorem paired_uRun (ha : alpha a = alpha b) {beta : Mat K V Num} (hb : beta a = beta b) {tol : ℝ} {i : ℕ}
    {s : Vec K Num × Mat K V Num} (h : uRun D X alpha beta tol i = some s) : Paired a b s := by
  have key : ∀ i old t, Paired a b t → uLoop D X alpha beta tol i old t = some s → Paired a b s := by
    intro i
    induction i with
    | zero => intro old t ht h; rw [uLoop] at h; rwa [← Option.some.inj h]
    | succ i ih =>
      intro old t ht h
      rw [uLoop] at h
      split_ifs at h
      · rwa [← Option.some.inj h]
      · obtain ⟨phi, hphi, h⟩ := Option.bind_eq_some_iff.1 h
        have hp := paired_uPhi hb ht.1 hphi
        exact ih _ _ ⟨paired_gamma ha hp, hp⟩ h
  exact key i _ _ (paired_first ha) h

/-- **C143** with the numbers of the machine, also infinities and NaN: LDA.  Topics that are equal bit for bit stay so. -/
theorem C143_lda_numbers (ha : alpha a = alpha b) {tol : ℝ} {i : ℕ} (epochs : List (List (Vec V ℕ))) :
    ∀ {beta beta' : Mat K V Num}, beta a = beta b → uTrain D alpha tol i epochs beta = some beta' → beta' a = beta' b := by
  have gather : ∀ (beta : Mat K V Num), beta a = beta b → ∀ (docs : List (Vec V ℕ)) (c c' : Mat K V Num), c a = c b →
      uGather D alpha tol i beta docs c = some c' → c' a = c' b := by
    intro beta hb docs
    induction docs with
    | nil => intro c c' hc h; rw [uGather] at h; rwa [← Option.some.inj h]
    | cons X docs ih =>
      intro c c' hc h
      rw [uGather] at h
      obtain ⟨s, hs, h⟩ := Option.bind_eq_some_iff.1 h
      refine ih _ _ ?_ h
      have := (paired_uRun ha hb hs).2
      funext n
      simp only [nCounts, hc, this]
  induction epochs with
  | nil => intro beta beta' hb h; rw [uTrain] at h; rwa [← Option.some.inj h]
  | cons docs rest ih =>
    intro beta beta' hb h
    rw [uTrain] at h
    obtain ⟨p, hp, h⟩ := Option.bind_eq_some_iff.1 h
    refine ih ?_ h
    obtain ⟨c, hc, rfl⟩ := Option.map_eq_some_iff.1 hp
    have := gather beta hb docs _ _ rfl hc
    funext n
    simp only [nTopics, this]

/-! ### The steps with classes -/

theorem paired_mRun (ha : alpha a = alpha b) {y : Fin C} {beta : Mat K V Num} {eta : Mat K C Num} (hb : beta a = beta b)
    (he : eta a = eta b) {w tol : ℝ} {i : ℕ} {s : Vec K Num × Mat K V Num}
    (h : mRun L X y alpha beta eta w tol i = some s) : Paired a b s := by
  have key : ∀ i old t, Paired a b t → mLoop L X y alpha beta eta w tol i old t = some s → Paired a b s := by
    intro i
    induction i with
    | zero => intro old t ht h; rw [mLoop] at h; rwa [← Option.some.inj h]
    | succ i ih =>
      intro old t ht h
      rw [mLoop] at h
      split_ifs at h
      · rwa [← Option.some.inj h]
      · obtain ⟨phi, hphi, h⟩ := Option.bind_eq_some_iff.1 h
        have hp : phi a = phi b := by
          obtain ⟨e, hm, rfl⟩ := Option.map_eq_some_iff.1 hphi
          have := paired_map hm (i := a) (j := b) (by simp only [mExponents, he, ht.1])
          funext n
          exact paired_normalize (by simp only [hb, this])
        exact ih _ _ ⟨paired_gamma ha hp, hp⟩ h
  exact key i _ _ (paired_first ha) h

theorem paired_cRun (ha : alpha a = alpha b) {y : Fin C} {beta : Mat K V Num} {eta : Mat K C Num} (hb : beta a = beta b)
    (he : eta a = eta b) {tol : ℝ} {i : ℕ} {s : NumTriple K V} (h : cRun L X y alpha beta eta tol i = some s) :
    s.gamma a = s.gamma b ∧ s.phi a = s.phi b := by
  have key : ∀ i old t, (t.gamma a = t.gamma b ∧ t.phi a = t.phi b) → cLoop L X y alpha beta eta tol i old t = some s →
      s.gamma a = s.gamma b ∧ s.phi a = s.phi b := by
    intro i
    induction i with
    | zero => intro old t ht h; rw [cLoop] at h; rwa [← Option.some.inj h]
    | succ i ih =>
      intro old t ht h
      rw [cLoop] at h
      split_ifs at h
      · rwa [← Option.some.inj h]
      · obtain ⟨phi, hphi, h⟩ := Option.bind_eq_some_iff.1 h
        obtain ⟨tau, -, h⟩ := Option.bind_eq_some_iff.1 h
        have hp : phi a = phi b := by
          obtain ⟨e, hm, hphi⟩ := Option.bind_eq_some_iff.1 hphi
          obtain ⟨x, hx, rfl⟩ := Option.map_eq_some_iff.1 hphi
          have h1 := paired_map hm (i := a) (j := b) (by simp only [ht.1])
          funext n
          have h2 := mapMat_some hx a n
          rw [he, mapMat_some hx b n] at h2
          exact paired_normalize (by simp only [hb, h1, Option.some.inj h2])
        exact ih _ _ ⟨paired_gamma ha hp, hp⟩ h
  have h0 := paired_first (F := F) (X := X) ha
  exact key i _ _ ⟨h0.1, h0.2⟩ h

theorem paired_train {mu : ℝ} {step : NumParams K V C → Vec V ℕ × Fin C → Option (Mat K V Num)}
    (hstep : ∀ p d s, p.beta a = p.beta b → p.eta a = p.eta b → step p d = some s → s a = s b)
    (epochs : List (List (Vec V ℕ × Fin C))) : ∀ {p : NumParams K V C} {r : NumParams K V C × List Num}, p.beta a = p.beta b →
    p.eta a = p.eta b → lTrain L mu step epochs p = some r → r.1.beta a = r.1.beta b ∧ r.1.eta a = r.1.eta b := by
  have gather : ∀ (p : NumParams K V C), p.beta a = p.beta b → p.eta a = p.eta b → ∀ (docs : List (Vec V ℕ × Fin C))
      (c c' : NumStats K V C), (c.b a = c.b b ∧ c.h a = c.h b) → lGather L p.eta (step p) docs c = some c' →
      c'.b a = c'.b b ∧ c'.h a = c'.h b := by
    intro p hb he docs
    induction docs with
    | nil => intro c c' hc h; rw [lGather] at h; rwa [← Option.some.inj h]
    | cons d docs ih =>
      intro c c' hc h
      rw [lGather] at h
      obtain ⟨s, hs, h⟩ := Option.bind_eq_some_iff.1 h
      refine ih _ _ ?_ h
      have h1 := hstep p d s hb he hs
      constructor
      · funext n
        simp only [lAdd, hc.1, h1]
      · funext c'
        simp only [lAdd, hc.2, h1]
  induction epochs with
  | nil =>
    intro p r hb he h
    rw [lTrain] at h
    rw [← Option.some.inj h]
    exact ⟨hb, he⟩
  | cons docs rest ih =>
    intro p r hb he h
    rw [lTrain] at h
    obtain ⟨q, hq, h⟩ := Option.bind_eq_some_iff.1 h
    obtain ⟨t, ht, rfl⟩ := Option.map_eq_some_iff.1 h
    unfold lEpoch at hq
    split_ifs at hq
    obtain ⟨c, hc, rfl⟩ := Option.map_eq_some_iff.1 hq
    have h1 := gather p hb he docs _ _ ⟨rfl, rfl⟩ hc
    show t.1.beta a = t.1.beta b ∧ t.1.eta a = t.1.eta b
    refine ih ?_ ?_ ht
    · simp only [lTopics, h1.1]
    · simp only [lTopics, h1.2]

/-- **C143** with the numbers of the machine: multinomial supervised LDA. -/
theorem C143_multinomial_numbers (ha : alpha a = alpha b) {mu w tol : ℝ} {i : ℕ} {epochs : List (List (Vec V ℕ × Fin C))}
    {p : NumParams K V C} {r : NumParams K V C × List Num} (hb : p.beta a = p.beta b) (he : p.eta a = p.eta b)
    (h : lTrain L mu (mScaled L alpha w tol i) epochs p = some r) : r.1.beta a = r.1.beta b ∧ r.1.eta a = r.1.eta b := by
  refine paired_train ?_ epochs hb he h
  intro p d s hb he hs
  obtain ⟨t, ht, rfl⟩ := Option.map_eq_some_iff.1 hs
  have := (paired_mRun ha hb he ht).2
  funext n
  simp only [nWeighted, this]

/-- **C143** with the numbers of the machine: correspondence LDA. -/
theorem C143_correspondence_numbers (ha : alpha a = alpha b) {mu tol : ℝ} {i : ℕ} {epochs : List (List (Vec V ℕ × Fin C))}
    {p : NumParams K V C} {r : NumParams K V C × List Num} (hb : p.beta a = p.beta b) (he : p.eta a = p.eta b)
    (h : lTrain L mu (cScaled L alpha tol i) epochs p = some r) : r.1.beta a = r.1.beta b ∧ r.1.eta a = r.1.eta b := by
  refine paired_train ?_ epochs hb he h
  intro p d s hb he hs
  obtain ⟨t, ht, rfl⟩ := Option.map_eq_some_iff.1 hs
  have := (paired_cRun ha hb he ht).2
  funext n
  simp only [this]

/-- A case of `C143_lda_numbers`: a thousand epochs with two equal topics are defined, and the topics are still equal. -/
example (tol : ℝ) (i : ℕ) : ∃ p : Mat 2 3 Num, uTrain (plainGamma wide_double).toDevice (fun _ => 1 / 2) tol i
    (List.replicate 1000 someDocs) (fun _ _ => .fin (1 / 2)) = some p ∧ p 0 = p 1 := by
  obtain ⟨p, hp, -⟩ := C139_double_partial (plainGamma wide_double) (A := 1) (K := 2) (alpha := fun _ => 1 / 2) (beta := fun _ _ => 1 / 2)
    someDocs_words (by decide) (by norm_num) (by norm_num) (by norm_num) (fun _ => by norm_num) (fun _ => by norm_num) (by norm_num)
    (fun _ => half_rep wide_double) (fun _ _ => by norm_num) (fun _ _ => by norm_num)
    (fun _ _ n _ => ⟨0, half_low (by norm_num)⟩)
    (fun _ => ⟨![1, 0, 2], by simp [someDocs], 0, by simp, half_low (by norm_num)⟩) tol i (List.replicate 1000 someDocs)
    (fun e he => by rw [List.eq_of_mem_replicate he])
  exact ⟨_, hp, C143_lda_numbers (a := 0) (b := 1) (D := (plainGamma wide_double).toDevice) (alpha := fun _ => 1 / 2) rfl _ rfl hp⟩

end Verif.Overflow
