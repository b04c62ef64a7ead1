import Verif.Lemmas.Converge
import Verif.Lemmas.WeightMono
import Verif.Props.Bound

/-! Property C113: with enough iterations the E step ends because it has converged. -/
namespace Verif.EStep

open MathUtils Finset

variable {K V C : ℕ} {P : Prims}

/-! ### Specification -/

/-- The numbers of iterations that are enough: `N` words, `K` topics, and `R` for the logarithm of the ratio between the
largest and the smallest weight a topic can have. -/
def Enough (K N : ℕ) (R tol : ℝ) (limit : ℕ) : Prop := 8 * (N : ℝ) ^ 2 * R / (K * tol) ^ 2 + 2 < limit

/-- The E step ends before the limit: the last of a sequence of updates changed the topic counts by less than the
tolerance. -/
def Settles {S : Type} (R : S → S → Prop) (s0 s : S) (tol : ℝ) (gam : S → Vec K ℝ) : Prop :=
  ∃ (f : ℕ → S) (j : ℕ), f 0 = s0 ∧ (∀ i < j, R (f i) (f (i + 1))) ∧ s = f j ∧ change (fun i => gam (f i)) j < tol

/-! ### Any update with weights that grow with the topic counts -/

theorem few_changes (hK : 0 < K) {X : Vec V ℕ} {alpha : Vec K ℝ} {b : Mat K V ℝ}
    (hb : ∀ k n, 0 ≤ b k n) {wt : ℝ → ℝ} {A B tol : ℝ} (hpos : ∀ x ∈ Set.Icc A B, 0 < wt x)
    (hmono : MonotoneOn wt (Set.Icc A B)) (hA : ∀ k, A ≤ alpha k) (hB : ∀ k, alpha k + ∑ n, (X n : ℝ) ≤ B)
    (htol : 0 < tol) {limit : ℕ} {f : ℕ → VP K V} (h0 : ∀ k, (f 0).gamma k ∈ Set.Icc A B)
    (hstep : ∀ i < limit, ∃ σ : Fin V → ℝ, (∀ n, 0 < σ n) ∧
      Proportional (f (i + 1)).phi (fun k n => σ n * (b k n * wt ((f i).gamma k))) ∧ Counts X alpha (f (i + 1)))
    (hch : ∀ i < limit, ¬ change (fun i => (f i).gamma) i < tol) :
    ¬ Enough K (∑ n, X n) (Real.log (wt B) - Real.log (wt A)) tol limit := by
  classical
  intro hen
  unfold Enough at hen
  have hAB : A ≤ B := (h0 ⟨0, hK⟩).1.trans (h0 ⟨0, hK⟩).2
  have hR : 0 ≤ Real.log (wt B) - Real.log (wt A) := sub_nonneg.2
    (Real.log_le_log (hpos A ⟨le_rfl, hAB⟩) (hmono ⟨le_rfl, hAB⟩ ⟨hAB, le_rfl⟩ hAB))
  have hKt : 0 < (K : ℝ) * tol := mul_pos (Nat.cast_pos.2 hK) htol
  have hnn : 0 ≤ 8 * ((∑ n, X n : ℕ) : ℝ) ^ 2 * (Real.log (wt B) - Real.log (wt A)) / (K * tol) ^ 2 := by positivity
  have hl2 : 2 < limit := by
    have : (2 : ℝ) < limit := by linarith
    exact_mod_cast this
  obtain ⟨T, rfl⟩ : ∃ T, limit = T + 2 := ⟨limit - 2, by omega⟩
  -- words that no topic knows have no influence
  set c : Fin V → ℝ := fun n => if ∃ k, b k n ≠ 0 then (X n : ℝ) else 0 with hc
  have hcle : ∑ n, c n ≤ ∑ n, (X n : ℝ) := Finset.sum_le_sum fun n _ => by
    simp only [hc]
    split
    · exact le_rfl
    · exact Nat.cast_nonneg _
  have hcn : ∀ n, 0 ≤ c n := fun n => by
    simp only [hc]
    split
    · exact Nat.cast_nonneg _
    · exact le_rfl
  have hknown : ∀ n, c n ≠ 0 → ∃ k, b k n ≠ 0 := fun n h => by
    by_contra hno
    exact h (by simp only [hc]; rw [if_neg hno])
  -- every iterate stays in the interval
  have hcounts : ∀ i < T + 2, (∀ k, (f (i + 1)).gamma k = alpha k + ∑ n, c n * (f (i + 1)).phi k n) := fun i hi k => by
    obtain ⟨σ, _, hp, hcnt⟩ := hstep i hi
    rw [hcnt k]
    congr 1
    refine Finset.sum_congr rfl fun n _ => ?_
    by_cases hno : ∃ k, b k n ≠ 0
    · simp only [hc, if_pos hno]
    · simp only [hc, if_neg hno]
      push Not at hno
      rw [(hp n).2.2 (fun k => by simp [hno k]) k]
      simp
  have hdist : ∀ i < T + 2, (∀ k, (f i).gamma k ∈ Set.Icc A B) → ∀ n, c n ≠ 0 →
      ((∀ k, 0 ≤ (f (i + 1)).phi k n) ∧ ∑ k, (f (i + 1)).phi k n = 1) ∧
      ∀ k, (f (i + 1)).phi k n * ∑ j, b j n * wt ((f i).gamma j) = b k n * wt ((f i).gamma k) := fun i hi hmem n hn => by
    obtain ⟨σ, hσ, hp, _⟩ := hstep i hi
    obtain ⟨k0, hk0⟩ := hknown n hn
    have hw : ∀ k, 0 ≤ b k n * wt ((f i).gamma k) := fun k => mul_nonneg (hb k n) (hpos _ (hmem k)).le
    have hZ : 0 < ∑ j, b j n * wt ((f i).gamma j) := Finset.sum_pos' (fun k _ => hw k)
      ⟨k0, mem_univ _, mul_pos (lt_of_le_of_ne (hb k0 n) hk0.symm) (hpos _ (hmem k0))⟩
    have he : ∀ k, (f (i + 1)).phi k n * ∑ j, b j n * wt ((f i).gamma j) = b k n * wt ((f i).gamma k) := fun k => by
      have := (hp n).1 k
      rw [← Finset.mul_sum, mul_left_comm] at this
      exact mul_left_cancel₀ (hσ n).ne' this
    refine ⟨⟨fun k => ?_, (hp n).2.1 ⟨k0, mul_ne_zero (hσ n).ne' (mul_ne_zero hk0 (hpos _ (hmem k0)).ne')⟩⟩, he⟩
    have : (f (i + 1)).phi k n = b k n * wt ((f i).gamma k) / ∑ j, b j n * wt ((f i).gamma j) := by
      rw [eq_div_iff hZ.ne', he k]
    rw [this]
    exact div_nonneg (hw k) hZ.le
  have hmem : ∀ i ≤ T + 2, ∀ k, (f i).gamma k ∈ Set.Icc A B := by
    intro i
    induction i with
    | zero => exact fun _ => h0
    | succ i ih =>
      intro hi k
      have hd := hdist i (by omega) (ih (by omega))
      have hone : ∀ n, 0 ≤ c n * (f (i + 1)).phi k n ∧ c n * (f (i + 1)).phi k n ≤ c n := fun n => by
        by_cases hn : c n = 0
        · simp [hn]
        · obtain ⟨⟨h1, h2⟩, _⟩ := hd n hn
          have h3 : (f (i + 1)).phi k n ≤ 1 := by
            rw [← h2]
            exact Finset.single_le_sum (f := fun k => (f (i + 1)).phi k n) (fun k _ => h1 k) (mem_univ k)
          exact ⟨mul_nonneg (hcn n) (h1 k), by nlinarith [hcn n]⟩
      have h1 := Finset.sum_nonneg fun n (_ : n ∈ (univ : Finset (Fin V))) => (hone n).1
      have h2 := Finset.sum_le_sum fun n (_ : n ∈ (univ : Finset (Fin V))) => (hone n).2
      rw [hcounts i (by omega) k]
      exact ⟨by linarith [hA k], by linarith [hB k]⟩
  have hu : Converge.Updates c alpha b wt A B T (f 0).gamma (fun t => (f (t + 1)).phi) fun t => (f (t + 1)).gamma :=
    { c_nonneg := hcn
      b_nonneg := hb
      known := hknown
      wt_pos := hpos
      mono := hmono
      low := hA
      high := fun k => by linarith [hB k]
      start := h0
      gam_eq := fun t ht k => hcounts t (by omega) k
      dist := fun t ht n hn => (hdist t (by omega) (hmem t (by omega)) n hn).1
      first := fun n hn k => (hdist 0 (by omega) h0 n hn).2 k
      step := fun t ht n hn k => (hdist (t + 1) (by omega) (hmem (t + 1) (by omega)) n hn).2 k }
  have htot := hu.total
  have hlow : ∀ t ∈ range T, (K * tol) ^ 2 ≤ (∑ k, |(f (t + 1 + 1)).gamma k - (f (t + 1)).gamma k|) ^ 2 := fun t ht => by
    have h1 := hch (t + 1 + 1) (by have := mem_range.1 ht; omega)
    rw [change, not_lt, le_div_iff₀ (Nat.cast_pos.2 hK), mul_comm] at h1
    exact pow_le_pow_left₀ hKt.le h1 2
  have hsum := Finset.sum_le_sum hlow
  rw [Finset.sum_const, Finset.card_range, nsmul_eq_mul] at hsum
  have hN : (∑ n, c n) ^ 2 ≤ ((∑ n, X n : ℕ) : ℝ) ^ 2 := by
    refine pow_le_pow_left₀ (Finset.sum_nonneg fun n _ => hcn n) ?_ 2
    push_cast
    exact hcle
  have hfin : (T : ℝ) * (K * tol) ^ 2 ≤ 8 * ((∑ n, X n : ℕ) : ℝ) ^ 2 * (Real.log (wt B) - Real.log (wt A)) := by
    nlinarith
  rw [← le_div_iff₀ (by positivity)] at hfin
  push_cast at hen hfin
  linarith

/-- The loop either does all iterations without converging, or gives the same result for every larger limit. -/
theorem loop_or {S : Type} {step : S → Option S} {gam : S → Vec K ℝ} {tol : ℝ} :
    ∀ (i : ℕ) (old : Vec K ℝ) (s r : S), loop step gam tol i old s = some r →
      (∀ i' ≥ i, loop step gam tol i' old s = some r) ∨
      ∃ f : ℕ → S, f 0 = s ∧ (∀ t < i, step (f t) = some (f (t + 1))) ∧
        ∀ t < i, ¬ converged (if t = 0 then old else gam (f (t - 1))) (gam (f t)) tol = true := by
  intro i
  induction i with
  | zero => exact fun old s r _ => .inr ⟨fun _ => s, rfl, by simp, by simp⟩
  | succ i ih =>
    intro old s r h
    rw [loop] at h
    split at h
    · rename_i hc
      refine .inl fun i' hi' => ?_
      obtain ⟨i', rfl⟩ : ∃ j, i' = j + 1 := ⟨i' - 1, by omega⟩
      rw [loop, if_pos hc, h]
    · rename_i hc
      obtain ⟨s1, h1, h2⟩ := Option.bind_eq_some_iff.1 h
      rcases ih _ _ _ h2 with h3 | ⟨f, f0, fs, fc⟩
      · refine .inl fun i' hi' => ?_
        obtain ⟨i', rfl⟩ : ∃ j, i' = j + 1 := ⟨i' - 1, by omega⟩
        rw [loop, if_neg hc, h1, Option.bind_some, h3 i' (by omega)]
      · refine .inr ⟨fun t => match t with | 0 => s | t + 1 => f t, rfl, fun t ht => ?_, fun t ht => ?_⟩
        · cases t with
          | zero => simpa [f0] using h1
          | succ t => exact fs t (by omega)
        · cases t with
          | zero => simpa using hc
          | succ t =>
            have := fc t (by omega)
            cases t with
            | zero => simpa [f0] using this
            | succ t => simpa using this

theorem loop_settles (hK : 0 < K) {S : Type} {step : S → Option S} {gam : S → Vec K ℝ} {tol : ℝ} {s : S}
    {E : ℕ → Prop} (hup : ∀ i j, E i → i ≤ j → E j) (hex : ∃ i, E i) (htotal : ∀ i, ∃ r, loop step gam tol i (fun _ => 0) s = some r)
    (hno : ∀ (i : ℕ) (f : ℕ → S), f 0 = s → (∀ t < i, step (f t) = some (f (t + 1))) →
      (∀ t < i, ¬ change (fun t => gam (f t)) t < tol) → ¬ E i) :
    ∃ r, (∃ (f : ℕ → S) (j : ℕ), f 0 = s ∧ (∀ i < j, step (f i) = some (f (i + 1))) ∧ r = f j ∧
      change (fun i => gam (f i)) j < tol) ∧ ∀ i, E i → loop step gam tol i (fun _ => 0) s = some r := by
  have hconv : ∀ (f : ℕ → S) (t : ℕ), converged (if t = 0 then fun _ => 0 else gam (f (t - 1))) (gam (f t)) tol = true ↔
      change (fun t => gam (f t)) t < tol := fun f t => by
    cases t with
    | zero => simp [converged, change, hK.ne']
    | succ t => simp [converged, change, hK.ne', abs_sub_comm]
  have hsame : ∀ i, E i → ∀ r, loop step gam tol i (fun _ => 0) s = some r →
      ∀ i' ≥ i, loop step gam tol i' (fun _ => 0) s = some r := fun i hi r hr => by
    rcases loop_or i _ s r hr with h | ⟨f, f0, fs, fc⟩
    · exact h
    · exact absurd hi (hno i f f0 fs fun t ht => by rw [← hconv]; exact fc t ht)
  obtain ⟨i, hi⟩ := hex
  obtain ⟨r, hr⟩ := htotal i
  refine ⟨r, ?_, fun i' hi' => ?_⟩
  · have h1 := hsame i hi r hr (i + 1) (by omega)
    obtain ⟨f, j, f0, fs, fr, fj, fn, fc⟩ := loop_spec hK (i + 1) _ s r h1
    have e : ∀ t, (∑ k, |gam (f t) k - (if t = 0 then fun _ => 0 else gam (f (t - 1))) k|) / K =
        change (fun i => gam (f i)) t := fun t => by
      cases t with
      | zero => simp [change]
      | succ t => simp [change]
    simp only [e] at fn fc
    refine ⟨f, j, f0, fs, fr, fc (lt_of_le_of_ne fj fun hj => ?_)⟩
    subst hj
    exact hno (i + 1) f f0 fs fn (hup i _ hi (by omega))
  · rcases le_total i i' with h | h
    · exact hsame i hi r hr i' h
    · obtain ⟨r', hr'⟩ := htotal i'
      have := hsame i' hi' r' hr' i h
      rw [hr] at this
      rwa [Option.some.inj this]

theorem Enough.up {N : ℕ} {R tol : ℝ} (i j : ℕ) (h : Enough K N R tol i) (hij : i ≤ j) : Enough K N R tol j :=
  lt_of_lt_of_le h (Nat.cast_le.2 hij)

theorem enough_exists (K N : ℕ) (R tol : ℝ) : ∃ i, Enough K N R tol i := exists_nat_gt _

theorem initial_mem (hK : 0 < K) {X : Vec V ℕ} {alpha : Vec K ℝ} {A B : ℝ} (hA : ∀ k, A ≤ alpha k)
    (hB : ∀ k, alpha k + ∑ n, (X n : ℝ) ≤ B) (k : Fin K) : (initial X alpha).gamma k ∈ Set.Icc A B := by
  have h1 : (0 : ℝ) ≤ ∑ n, (X n : ℝ) := Finset.sum_nonneg fun n _ => Nat.cast_nonneg _
  have h2 : (1 : ℝ) ≤ K := by exact_mod_cast hK
  have h3 : (∑ n, (X n : ℝ)) / K ≤ ∑ n, (X n : ℝ) := div_le_self h1 h2
  have h4 : 0 ≤ (∑ n, (X n : ℝ)) / K := div_nonneg h1 (by linarith)
  simp only [initial, numWords_cast]
  exact ⟨by linarith [hA k], by linarith [hB k]⟩

/-- **C113**, unsupervised step, with any exponential and digamma functions: if the weight `exp (psi x)` of a topic grows
with `x`, then every positive tolerance is reached after a number of iterations that the size of the document
determines, and from that number on the limit of the iterations has no influence on the result. -/
theorem C113_unsupervised {X : Vec V ℕ} {m : Model K V C} (hm : m.Valid) (hK : 0 < K) {A B a b tol : ℝ} (hA0 : 0 < A)
    (hA : ∀ k, A ≤ m.alpha k) (hB : ∀ k, m.alpha k + ∑ n, (X n : ℝ) ≤ B) (ha : P.psi A = some a)
    (hb : P.psi B = some b) (hmono : ∀ x y u v, A ≤ x → x ≤ y → y ≤ B → P.psi x = some u → P.psi y = some v →
      P.exp u ≤ P.exp v) (htol : 0 < tol) :
    ∃ s, Settles (UnsupervisedUpdate P X m) ⟨fun _ _ => 1 / K, fun k => m.alpha k + (∑ n, (X n : ℝ)) / K⟩ s tol
        VP.gamma ∧
      ∀ limit, Enough K (∑ n, X n) (Real.log (P.exp b) - Real.log (P.exp a)) tol limit →
        ∀ cl draw, ∃ r, unsupervised P ⟨limit, tol, cl⟩ draw X m = some (s, r) := by
  have hpsi : ∀ {x : ℝ}, 0 < x → P.psi x = some ((P.psi x).getD 0) := fun {x} hx => by
    obtain ⟨v, hv⟩ := P.psi_some x hx
    rw [hv]
    rfl
  obtain ⟨s, ⟨f, j, f0, fs, fr, fc⟩, hs⟩ := loop_settles hK (step := unsupervisedStep P X m) (gam := VP.gamma) (tol := tol)
    (s := initial X m.alpha) (Enough.up (K := K) (N := ∑ n, X n) (R := Real.log (P.exp b) - Real.log (P.exp a)))
    (enough_exists _ _ _ _)
    (fun i => by
      obtain ⟨s, r, h, _⟩ := C35_unsupervised_defined (P := P) (cfg := ⟨i, tol, 0⟩) (draw := 0) (X := X) hm hK
      exact ⟨s, run_of_unsupervised h⟩)
    (fun i f f0 fs fc => by
      have := few_changes (b := m.beta) (wt := fun x => P.exp ((P.psi x).getD 0)) (A := A) (B := B) (limit := i) hK
        hm.beta_nonneg (fun _ _ => P.exp_pos _)
        (fun x hx y hy hxy => hmono x y _ _ hx.1 hxy hy.2 (hpsi (hA0.trans_le hx.1)) (hpsi (hA0.trans_le hy.1)))
        hA hB htol (f := f) (by rw [f0]; exact initial_mem hK hA hB)
        (fun t ht => by
          obtain ⟨psi, h1, h2, h3⟩ := unsupervisedStep_update hm (fs t ht)
          refine ⟨fun _ => 1, fun _ => one_pos, ?_, h3⟩
          simp only [one_mul, h1, Option.getD_some]
          exact h2) fc
      rwa [ha, hb, Option.getD_some, Option.getD_some] at this)
  refine ⟨s, ⟨f, j, ?_, fun i hi => unsupervisedStep_update hm (fs i hi), fr, fc⟩, fun limit hl cl draw => ?_⟩
  · rw [f0, ← numWords_cast]
    rfl
  · obtain ⟨s', r, h, _⟩ := C35_unsupervised_defined (P := P) (cfg := ⟨limit, tol, cl⟩) (draw := draw) (X := X) hm hK
    have : s' = s := Option.some.inj ((run_of_unsupervised h).symm.trans (hs limit hl))
    exact ⟨r, this ▸ h⟩

theorem Enough.mono {N : ℕ} {R R' tol : ℝ} (hR : R ≤ R') {i : ℕ} (h : Enough K N R' tol i) : Enough K N R tol i := by
  unfold Enough at h ⊢
  refine lt_of_le_of_lt ?_ h
  gcongr

/-- **C113**, unsupervised step, with the exact exponential and digamma functions. -/
theorem C113_unsupervised_exact {X : Vec V ℕ} {m : Model K V C} (hm : m.Valid) (hK : 0 < K) {A B tol : ℝ} (hA0 : 0 < A)
    (hA : ∀ k, A ≤ m.alpha k) (hB : ∀ k, m.alpha k + ∑ n, (X n : ℝ) ≤ B) (htol : 0 < tol) :
    ∃ s, Settles (UnsupervisedUpdate exact X m) ⟨fun _ _ => 1 / K, fun k => m.alpha k + (∑ n, (X n : ℝ)) / K⟩ s tol
        VP.gamma ∧
      ∀ limit, Enough K (∑ n, X n) (logDeriv Real.Gamma B - logDeriv Real.Gamma A) tol limit →
        ∀ cl draw, ∃ r, unsupervised exact ⟨limit, tol, cl⟩ draw X m = some (s, r) := by
  have := C113_unsupervised (P := exact) hm hK hA0 hA hB rfl rfl (fun x y u v h1 h2 _ hu hv => by
    have hu' : logDeriv Real.Gamma x = u := Option.some.inj hu
    have hv' : logDeriv Real.Gamma y = v := Option.some.inj hv
    rw [← hu', ← hv']
    exact Real.exp_le_exp.2 (FastExp.psi_mono (hA0.trans_le h1) h2)) htol
  simpa only [exact, exactPrims, Real.log_exp] using this

/-- **C113**, multinomial step, with the exact exponential and digamma functions; the tolerance of this step is
`compute_likelihood` (C38). -/
theorem C113_multinomial_exact {X : Vec V ℕ} {y : Fin C} {m : Model K V C} (hm : m.Valid) (hK : 0 < K)
    (he : ∀ k, 0 < m.eta k y) {ew mu prior : ℝ} {D : ℕ} {A B cl : ℝ} (hA0 : 0 < A)
    (hA : ∀ k, A ≤ m.alpha k) (hB : ∀ k, m.alpha k + ∑ n, (X n : ℝ) ≤ B) (hcl : 0 < cl) :
    ∃ s, Settles (MultinomialUpdate exact ew X y m) ⟨fun _ _ => 1 / K, fun k => m.alpha k + (∑ n, (X n : ℝ)) / K⟩ s cl
        VP.gamma ∧
      ∀ limit, Enough K (∑ n, X n) (logDeriv Real.Gamma B - logDeriv Real.Gamma A) cl limit →
        ∀ tol draw, ∃ r, multinomial exact ⟨limit, tol, cl⟩ ew mu prior D draw X (y : ℤ) m = some (s, r) := by
  obtain ⟨s, ⟨f, j, f0, fs, fr, fc⟩, hs⟩ := loop_settles hK (step := multinomialStep exact ew X (y : ℤ) m)
    (gam := VP.gamma) (tol := cl) (s := initial X m.alpha)
    (Enough.up (K := K) (N := ∑ n, X n) (R := logDeriv Real.Gamma B - logDeriv Real.Gamma A))
    (enough_exists _ _ _ _)
    (fun i => by
      obtain ⟨s, r, h⟩ := C35_multinomial_defined (P := exact) (cfg := ⟨i, 0, cl⟩) (draw := 0) (X := X) (y := y) (ew := ew)
        (mu := mu) (prior := prior) (N := D) hm hK he
      exact ⟨s, run_of_multinomial h⟩)
    (fun i f f0 fs fc => by
      have := few_changes (b := fun k n => m.beta k n * Real.exp (ew * Real.log (m.eta k y)))
        (wt := fun x => Real.exp (logDeriv Real.Gamma x)) (A := A) (B := B) (limit := i) hK
        (fun k n => mul_nonneg (hm.beta_nonneg k n) (Real.exp_pos _).le) (fun _ _ => Real.exp_pos _)
        (fun x hx y hy hxy => Real.exp_le_exp.2 (FastExp.psi_mono (hA0.trans_le hx.1) hxy))
        hA hB hcl (f := f) (by rw [f0]; exact initial_mem hK hA hB)
        (fun t ht => by
          obtain ⟨psi, d, h1, _, h2, h3⟩ := multinomialStep_update hm (fs t ht)
          refine ⟨fun _ => Real.exp (-d - 1), fun _ => Real.exp_pos _, ?_, h3⟩
          have e : (fun (k : Fin K) (n : Fin V) => m.beta k n * exact.exp (psi k - d - 1 + ew * Real.log (m.eta k y))) =
              fun k n => Real.exp (-d - 1) * (m.beta k n * Real.exp (ew * Real.log (m.eta k y)) *
                Real.exp (logDeriv Real.Gamma ((f t).gamma k))) := by
            funext k n
            have h4 : logDeriv Real.Gamma ((f t).gamma k) = psi k := Option.some.inj (h1 k)
            have h5 : psi k - d - 1 + ew * Real.log (m.eta k y) = (-d - 1) + ew * Real.log (m.eta k y) + psi k := by ring
            rw [h4, h5]
            simp only [exact, exactPrims, Real.exp_add]
            ring
          rwa [e] at h2) fc
      simpa only [Real.log_exp] using this)
  refine ⟨s, ⟨f, j, ?_, fun i hi => multinomialStep_update hm (fs i hi), fr, fc⟩, fun limit hl tol draw => ?_⟩
  · rw [f0, ← numWords_cast]
    rfl
  · obtain ⟨s', r, h⟩ := C35_multinomial_defined (P := exact) (cfg := ⟨limit, tol, cl⟩) (draw := draw) (X := X) (y := y)
      (ew := ew) (mu := mu) (prior := prior) (N := D) hm hK he
    have : s' = s := Option.some.inj ((run_of_multinomial h).symm.trans (hs limit hl))
    exact ⟨r, this ▸ h⟩

/-- The values of `digamma` for priors that are not tiny and documents that are not astronomic. -/
theorem digamma_range {x v : ℝ} (h1 : 1 / 50 ≤ x) (h2 : x ≤ 10 ^ 40) (h : FastExp.digamma x = some v) :
    -56 ≤ v ∧ v ≤ 94 := by
  have hx : 0 < x := by linarith
  obtain ⟨v', h3, h4, h5⟩ := FastExp.C88_accuracy x (Digamma.pos_ne_neg hx)
  rw [h, Option.some.injEq] at h3
  subst h3
  have h6 := Digamma.psi_le_log hx
  have h7 := Digamma.log_le_psi hx
  simp only [Digamma.psi] at h6 h7
  have h8 : Real.log x ≤ 94 := by
    have h9 := Real.log_le_log hx h2
    have h10 : Real.log 10 ≤ 233 / 100 := by
      have l2 := Real.log_two_lt_d9
      have e : Real.log (10 : ℝ) = 3 * Real.log 2 + Real.log (5 / 4) := by
        rw [show (10 : ℝ) = 2 ^ 3 * (5 / 4) by norm_num, Real.log_mul (by norm_num) (by norm_num), Real.log_pow]
        push_cast
        ring
      have := Real.log_le_sub_one_of_pos (show (0 : ℝ) < 5 / 4 by norm_num)
      norm_num at this l2
      linarith
    rw [Real.log_pow] at h9
    push_cast at h9
    linarith
  have h11 : -5 ≤ Real.log x := by
    have h12 := Real.log_le_log (by norm_num) h1
    rw [one_div, Real.log_inv] at h12
    have h13 : Real.log 50 ≤ 5 := by
      have l2 := Real.log_two_lt_d9
      have e : Real.log (50 : ℝ) = 5 * Real.log 2 + Real.log (25 / 16) := by
        rw [show (50 : ℝ) = 2 ^ 5 * (25 / 16) by norm_num, Real.log_mul (by norm_num) (by norm_num), Real.log_pow]
        push_cast
        ring
      have e2 : Real.log (25 / 16 : ℝ) ≤ 25 / 16 - 1 := Real.log_le_sub_one_of_pos (by norm_num)
      norm_num at e2 l2
      linarith
    linarith
  have h14 : 1 / x ≤ 50 := by
    rw [div_le_iff₀ hx]
    linarith
  norm_num at h5
  constructor <;> linarith

/-- **C113**, unsupervised step with `fast_exp` and `digamma` as they are: if the prior is at least 1/50 then every
positive tolerance is reached, after at most `1280 (N / (K tol))² + 3` iterations. -/
theorem C113_unsupervised_actual {X : Vec V ℕ} {m : Model K V C} (hm : m.Valid) (hK : 0 < K) {tol : ℝ}
    (hA : ∀ k, 1 / 50 ≤ m.alpha k) (hB : ∀ k, m.alpha k + ∑ n, (X n : ℝ) ≤ 10 ^ 40) (htol : 0 < tol) :
    ∃ s, Settles (UnsupervisedUpdate fastPrims X m) ⟨fun _ _ => 1 / K, fun k => m.alpha k + (∑ n, (X n : ℝ)) / K⟩ s tol
        VP.gamma ∧
      ∀ limit, Enough K (∑ n, X n) 160 tol limit →
        ∀ cl draw, ∃ r, unsupervised fastPrims ⟨limit, tol, cl⟩ draw X m = some (s, r) := by
  obtain ⟨a, ha⟩ := FastExp.C32_positive (1 / 50) (by norm_num)
  obtain ⟨b, hb⟩ := FastExp.C32_positive (10 ^ 40) (by norm_num)
  have ra := digamma_range le_rfl (by norm_num) ha
  have rb := digamma_range (by norm_num) le_rfl hb
  obtain ⟨s, h1, h2⟩ := C113_unsupervised (P := fastPrims) (A := 1 / 50) (B := 10 ^ 40) (a := a) (b := b) hm hK
    (by norm_num) hA hB ha hb (fun x y u v h1 h2 h3 hu hv => by
      have ru := digamma_range h1 (h2.trans h3) hu
      have rv := digamma_range (h1.trans h2) h3 hv
      exact FastExp.weight_mono (lt_of_lt_of_le (by norm_num) h1) h2 hu hv (abs_le.2 ⟨by linarith, by linarith⟩)
        (abs_le.2 ⟨by linarith, by linarith⟩) (fastPrims_exp u) (fastPrims_exp v)) htol
  refine ⟨s, h1, fun limit hl => h2 limit (hl.mono ?_)⟩
  obtain ⟨va, h3, _, h5⟩ := FastExp.C30_accuracy a (abs_le.2 ⟨by linarith, by linarith⟩)
  obtain ⟨vb, h6, _, h8⟩ := FastExp.C30_accuracy b (abs_le.2 ⟨by linarith, by linarith⟩)
  rw [fastPrims_exp, Option.some.injEq] at h3 h6
  subst h3 h6
  have la : max 1 (2 * |a|) ≤ 188 := max_le (by norm_num) (by
    have : |a| ≤ 94 := abs_le.2 ⟨by linarith, by linarith⟩
    linarith)
  have lb : max 1 (2 * |b|) ≤ 188 := max_le (by norm_num) (by
    have : |b| ≤ 94 := abs_le.2 ⟨by linarith, by linarith⟩
    linarith)
  have ea := mul_le_mul_of_nonneg_right la (show (0 : ℝ) ≤ 1 / 1023 + 23 / 10 ^ 14 by norm_num)
  have eb := mul_le_mul_of_nonneg_right lb (show (0 : ℝ) ≤ 1 / 1023 + 23 / 10 ^ 14 by norm_num)
  have xa := (abs_le.1 (h5.trans ea)).1
  have xb := (abs_le.1 (h8.trans eb)).2
  norm_num at xa xb
  linarith

/-! ### Non-vacuity -/

/-- The demo model and document: three words, two topics, a tolerance of 1/100; 28.8 million iterations are enough. -/
example : ∃ s, ∀ limit : ℕ, 28800003 ≤ limit →
    ∀ cl draw, ∃ r, unsupervised fastPrims ⟨limit, 1 / 100, cl⟩ draw demoX demo = some (s, r) := by
  have hN : ∑ n, demoX n = 3 := by simp [Fin.sum_univ_three, demoX]
  obtain ⟨s, _, h⟩ := C113_unsupervised_actual (tol := 1 / 100) (X := demoX) demo_valid (by norm_num)
    (fun k => by norm_num [demo]) (fun k => by
      have : (∑ n, (demoX n : ℝ)) = 3 := by exact_mod_cast hN
      rw [this]
      norm_num [demo]) (by norm_num)
  refine ⟨s, fun limit hl => h limit ?_⟩
  have : (28800003 : ℝ) ≤ limit := by exact_mod_cast hl
  rw [Enough, hN]
  norm_num
  linarith

/-- The multinomial step on the demo model. -/
example : ∃ s enough, ∀ limit, enough ≤ limit →
    ∀ tol draw, ∃ r, multinomial exact ⟨limit, tol, 1 / 2⟩ 1 2 1 5 draw demoX ((0 : Fin 2) : ℤ) demo = some (s, r) := by
  obtain ⟨s, _, h⟩ := C113_multinomial_exact (X := demoX) (y := 0) (ew := 1) (mu := 2) (prior := 1) (D := 5) (A := 1 / 2)
    (B := 1 / 2 + ∑ n, (demoX n : ℝ)) (cl := 1 / 2) demo_valid (by norm_num) (fun k => demo_eta k 0) (by norm_num)
    (fun k => by simp [demo]) (fun k => by simp [demo]) (by norm_num)
  obtain ⟨N, hN⟩ := enough_exists 2 (∑ n, demoX n)
    (logDeriv Real.Gamma (1 / 2 + ∑ n, (demoX n : ℝ)) - logDeriv Real.Gamma (1 / 2)) (1 / 2)
  exact ⟨s, N, fun limit hl => h limit (Enough.up N limit hN hl)⟩

end Verif.EStep
