import Verif.Lemmas.ConvergeSup

/-! Property C113, supervised step: with enough iterations it ends because it has converged. -/
namespace Verif.EStep

open MathUtils Finset

variable {K V C : ℕ}

/-- Limits on the iterations of the supervised step that are large enough, for a document of `N` words with `fp` fixed
point iterations for each word: `Q` is the range of the digamma function and `E` that of the classification parameters
of a class. -/
def EnoughSup (K N fp : ℕ) (Q E tol : ℝ) (limit : ℕ) : Prop :=
  4 * (N : ℝ) * fp * (2 * N * Q + N * Real.exp E + E) / (K * tol) ^ 2 + 2 < limit

theorem EnoughSup.up {N fp : ℕ} {Q E tol : ℝ} (i j : ℕ) (h : EnoughSup K N fp Q E tol i) (hij : i ≤ j) :
    EnoughSup K N fp Q E tol j := lt_of_lt_of_le h (Nat.cast_le.2 hij)

theorem enoughSup_exists (K N fp : ℕ) (Q E tol : ℝ) : ∃ i, EnoughSup K N fp Q E tol i := exists_nat_gt _

theorem few_sweeps (hK : 0 < K) {X : Vec V ℕ} {y : Fin C} {m : Model K V C} (hm : m.Valid)
    (hk : ∀ n, X n ≠ 0 → m.Known n) {A B E tol : ℝ} (hA0 : 0 < A) (hA : ∀ k, A ≤ m.alpha k)
    (hB : ∀ k, m.alpha k + ∑ n, (X n : ℝ) ≤ B) (hE : ∀ k j c, m.eta k c - m.eta j c ≤ E) (htol : 0 < tol) {fp limit : ℕ}
    {f : ℕ → VP K V} (hd : ∀ i ≤ limit, ∀ n, IsDist fun k => (f i).phi k n) (hc : ∀ i ≤ limit, Counts X m.alpha (f i))
    (hstep : ∀ i < limit, WordUpdates exact X y m fp (present X) (f i) (f (i + 1)))
    (hch : ∀ i < limit, ¬ change (fun i => (f i).gamma) i < tol) :
    ¬ EnoughSup K (∑ n, X n) fp (logDeriv Real.Gamma B - logDeriv Real.Gamma A) E tol limit := by
  intro hen
  have hE0 : 0 ≤ E := by simpa using hE ⟨0, hK⟩ ⟨0, hK⟩ y
  have hK' : (0 : ℝ) < K := by exact_mod_cast hK
  set N : ℝ := ∑ n, (X n : ℝ) with hN
  have hNc : ((∑ n, X n : ℕ) : ℝ) = N := by push_cast; rfl
  have hN0 : 0 ≤ N := Finset.sum_nonneg fun n _ => Nat.cast_nonneg _
  have hAB : A ≤ B := (hA ⟨0, hK⟩).trans (le_trans (by linarith) (hB ⟨0, hK⟩))
  set Q := logDeriv Real.Gamma B - logDeriv Real.Gamma A with hQ
  have hQ0 : 0 ≤ Q := by
    have := FastExp.psi_mono hA0 hAB
    simp only [Digamma.psi] at this
    linarith
  set R := 2 * N * Q + N * Real.exp E + E with hR
  have hR0 : 0 ≤ R := by positivity
  rw [EnoughSup, hNc, ← hR] at hen
  have hKt : 0 < K * tol := mul_pos hK' htol
  have hl2 : 2 < limit := by
    have h0 : 0 ≤ 4 * N * fp * R / (K * tol) ^ 2 := by positivity
    have : (2 : ℝ) < limit := by linarith
    exact_mod_cast this
  have big : ∀ i, i + 1 < limit → K * tol ≤ ∑ k, |(f (i + 1)).gamma k - (f i).gamma k| := fun i hi => by
    have := hch (i + 1) hi
    simp only [change, not_lt] at this
    rw [le_div_iff₀ hK'] at this
    linarith
  rcases Nat.eq_zero_or_pos fp with rfl | hfp
  · have h1 := big 0 (by omega)
    have h2 := sweep_idle (hstep 0 (by omega))
    simp only [h2, sub_self, abs_zero, Finset.sum_const_zero] at h1
    linarith
  have fine1 : Fine X m (f 1) := ⟨hd 1 (by omega), hc 1 (by omega), fun n hn k hb =>
    word_updates_known hfp (hstep 0 (by omega)) (hk n hn) hb (.inl (present_mem.2 hn))⟩
  have soft1 : ∀ n, X n ≠ 0 → Soft X y m (fun n => Q + Real.exp E / X n) (f 1) n := fun n hn =>
    sweep_soft hm hA0 hA hB hE0 hE hfp (hstep 0 (by omega)) (fun n hn => ⟨present_mem.1 hn, hk n (present_mem.1 hn)⟩)
      (hd 0 (by omega)) (hc 0 (by omega)) n (.inl (present_mem.2 hn))
  have grow : ∀ t : ℕ, t + 1 < limit → Fine X m (f (t + 1)) ∧
      (t : ℝ) * (K * tol) ^ 2 ≤ 4 * N * fp * (lyap X y m (f (t + 1)) - lyap X y m (f 1)) := by
    intro t
    induction t with
    | zero => exact fun _ => ⟨fine1, by simp⟩
    | succ t ih =>
      intro ht
      obtain ⟨a1, a2⟩ := ih (by omega)
      obtain ⟨b1, b2⟩ := sweep_change hm (hstep (t + 1) (by omega)) a1
      refine ⟨b1, ?_⟩
      have b3 := pow_le_pow_left₀ hKt.le (big (t + 1) ht) 2
      push_cast
      nlinarith
  obtain ⟨t, rfl⟩ : ∃ t, limit = t + 2 := ⟨limit - 2, by omega⟩
  obtain ⟨a1, a2⟩ := grow t (by omega)
  have a3 := lyap_range hm hA0 hA hB hE0 hE fine1 a1 soft1
  rw [← hN, ← hQ, ← hR] at a3
  have a4 : (t : ℝ) * (K * tol) ^ 2 ≤ 4 * N * fp * R := a2.trans (mul_le_mul_of_nonneg_left a3 (by positivity))
  have a5 : (t : ℝ) ≤ 4 * N * fp * R / (K * tol) ^ 2 := (le_div_iff₀ (by positivity)).2 a4
  push_cast at hen
  linarith

/-- **C113**, supervised step, with the exact exponential and digamma functions: if every word of the document is known
then every positive tolerance is reached after a number of sweeps that the size of the document, the prior and the range
of the classification parameters determine (the topics do not matter), and from that number on the limit of the
iterations has no influence on the result.  Words may be repeated, although the bound is then not what grows
(`C98_repeated_word`).  If the likelihood is to be reported then the document has to have words and a sweep has to be
made at all (`C75_uninitialised`). -/
theorem C113_supervised_exact {X : Vec V ℕ} {y : Fin C} {m : Model K V C} (hm : m.Valid) (hK : 0 < K)
    (hk : ∀ n, X n ≠ 0 → m.Known n) {A B E tol : ℝ} (hA0 : 0 < A) (hA : ∀ k, A ≤ m.alpha k)
    (hB : ∀ k, m.alpha k + ∑ n, (X n : ℝ) ≤ B) (hE : ∀ k j c, m.eta k c - m.eta j c ≤ E) (htol : 0 < tol) {fp : ℕ} :
    ∃ s, Settles (WordUpdates exact X y m fp (present X))
        ⟨fun _ _ => 1 / K, fun k => m.alpha k + (∑ n, (X n : ℝ)) / K⟩ s tol VP.gamma ∧
      ∀ limit, EnoughSup K (∑ n, X n) fp (logDeriv Real.Gamma B - logDeriv Real.Gamma A) E tol limit →
        ∀ cl draw, (draw < cl → (∃ n, X n ≠ 0) ∧ RunsOnce limit tol X m) →
          ∃ r, supervised exact ⟨limit, tol, cl⟩ fp draw X (y : ℤ) m = some (s, r) := by
  have inv : ∀ (i : ℕ) (f : ℕ → VP K V × Option (Vec K ℝ)), f 0 = (initial X m.alpha, none) →
      (∀ t < i, supervisedPhiGamma exact X (ratio X) (y : ℤ) m.beta m.eta fp (f t) = some (f (t + 1))) →
      ∀ t ≤ i, (∀ n, IsDist fun k => (f t).1.phi k n) ∧ Counts X m.alpha (f t).1 := by
    intro i f f0 fs t
    induction t with
    | zero => exact fun _ => by rw [f0]; exact ⟨initial_dist hK X m.alpha, initial_counts X m.alpha⟩
    | succ t ih =>
      intro ht
      obtain ⟨a1, a2⟩ := ih (by omega)
      obtain ⟨b1, b2, _, _⟩ := supervisedPhiGamma_spec hm a1 a2 (fs t (by omega))
      exact ⟨b1, b2⟩
  have upd : ∀ (i : ℕ) (f : ℕ → VP K V × Option (Vec K ℝ)), f 0 = (initial X m.alpha, none) →
      (∀ t < i, supervisedPhiGamma exact X (ratio X) (y : ℤ) m.beta m.eta fp (f t) = some (f (t + 1))) →
      ∀ t < i, WordUpdates exact X y m fp (present X) (f t).1 (f (t + 1)).1 := fun i f f0 fs t ht => by
    obtain ⟨a1, a2⟩ := inv i f f0 fs t ht.le
    exact (supervisedPhiGamma_spec hm a1 a2 (fs t ht)).2.2.1
  obtain ⟨s, ⟨f, j, f0, fs, fr, fc⟩, hs⟩ := loop_settles hK
    (step := supervisedPhiGamma exact X (ratio X) (y : ℤ) m.beta m.eta fp) (gam := fun s => s.1.gamma) (tol := tol)
    (s := (initial X m.alpha, none))
    (EnoughSup.up (K := K) (N := ∑ n, X n) (fp := fp) (Q := logDeriv Real.Gamma B - logDeriv Real.Gamma A) (E := E))
    (enoughSup_exists _ _ _ _ _ _)
    (fun i => supervisedRun_total (P := exact) (cfg := ⟨i, tol, 0⟩) (y := y) (fp := fp) hm hK hk)
    (fun i f f0 fs fc => few_sweeps (y := y) (fp := fp) (f := fun t => (f t).1) hK hm hk hA0 hA hB hE htol
      (fun t ht => (inv i f f0 fs t ht).1) (fun t ht => (inv i f f0 fs t ht).2) (upd i f f0 fs) fc)
  refine ⟨s.1, ⟨fun t => (f t).1, j, ?_, upd j f f0 fs, congrArg Prod.fst fr, fc⟩, fun limit hl cl draw hrep => ?_⟩
  · simp only [f0]
    rw [← numWords_cast]
    rfl
  · have hrun : supervisedRun exact ⟨limit, tol, cl⟩ fp X (y : ℤ) m = some s := hs limit hl
    by_cases hd : draw < cl
    · obtain ⟨hX, hro⟩ := hrep hd
      obtain ⟨s', r, h⟩ := C75_supervised_partial (P := exact) (cfg := ⟨limit, tol, cl⟩) (draw := draw) (y := y) (fp := fp)
        hm hK hX hk hro
      obtain ⟨h', h1⟩ := run_of_supervised h
      have : s = (s', h') := Option.some.inj (hrun.symm.trans h1)
      exact ⟨r, by rw [this]; exact h⟩
    · refine ⟨.nan, ?_⟩
      unfold supervised report bernoulli
      rw [hrun]
      simp [hd]

/-! ### Non-vacuity -/

/-- The demo model and document, in which a word is repeated; the likelihood is reported. -/
example : ∃ s enough, ∀ limit, enough ≤ limit →
    ∃ r, supervised exact ⟨limit, 1 / 100, 1⟩ 10 0 demoX ((1 : Fin 2) : ℤ) demo = some (s, r) := by
  have hb : ∃ E, ∀ k j c, demo.eta k c - demo.eta j c ≤ E := by
    refine ⟨∑ k, ∑ j, ∑ c, |demo.eta k c - demo.eta j c|, fun k j c => ?_⟩
    refine (le_abs_self _).trans ?_
    refine le_trans ?_ (Finset.single_le_sum (f := fun k => ∑ j, ∑ c, |demo.eta k c - demo.eta j c|)
      (fun k _ => Finset.sum_nonneg fun j _ => Finset.sum_nonneg fun c _ => abs_nonneg _) (mem_univ k))
    refine le_trans ?_ (Finset.single_le_sum (f := fun j => ∑ c, |demo.eta k c - demo.eta j c|)
      (fun j _ => Finset.sum_nonneg fun c _ => abs_nonneg _) (mem_univ j))
    exact Finset.single_le_sum (f := fun c => |demo.eta k c - demo.eta j c|) (fun c _ => abs_nonneg _) (mem_univ c)
  obtain ⟨E, hE⟩ := hb
  obtain ⟨s, _, h⟩ := C113_supervised_exact (X := demoX) (y := 1) (fp := 10) (A := 1 / 2) (tol := 1 / 100)
    (B := 1 / 2 + ∑ n, (demoX n : ℝ)) demo_valid (by norm_num) demo_known (by norm_num)
    (fun k => by simp [demo]) (fun k => by simp [demo]) hE (by norm_num)
  obtain ⟨N, hN⟩ := enoughSup_exists 2 (∑ n, demoX n) 10
    (logDeriv Real.Gamma (1 / 2 + ∑ n, (demoX n : ℝ)) - logDeriv Real.Gamma (1 / 2)) E (1 / 100)
  refine ⟨s, N + 1, fun limit hl => h limit (EnoughSup.up N limit hN (by omega)) 1 0 fun _ => ⟨⟨0, by simp [demoX]⟩, by omega, ?_⟩⟩
  simp [demo, demoX, Fin.sum_univ_three]
  norm_num

end Verif.EStep
