import Verif.Props.Evidence
import Verif.Props.SupervisedBound
import Verif.Props.ClassBound
import Mathlib.Analysis.MeanInequalitiesPow

/-! Property C134: what the supervised steps report bounds the probability of the document and its class from below. -/
namespace Verif.EStep

open MathUtils Finset

variable {K V C : ℕ} {P : Prims}

/-! ### Specification -/

/-- The expectation of `F`, a function of the topics of the words, jointly with the words of the document, under
latent Dirichlet allocation: as `evidence`, word by word.  If `F` is the probability of a class given the topics of
the words then it is the probability of the document and the class. -/
noncomputable def joint (beta : Mat K V ℝ) : (List (Fin K) → ℝ) → Vec K ℝ → List (Fin V) → ℝ
  | F, _, [] => F []
  | F, a, n :: l => ∑ k, a k / (∑ j, a j) * beta k n * joint beta (fun z => F (k :: z)) (a + Pi.single k 1) l

/-- The probability of class `y` in supervised latent Dirichlet allocation if the words have the topics `z`: the
softmax of the parameters of the classes applied to the proportions of the topics among the words. -/
noncomputable def classProb (eta : Mat K C ℝ) (y : Fin C) (z : List (Fin K)) : ℝ :=
  Real.exp ((z.map fun k => eta k y).sum / z.length) / ∑ c, Real.exp ((z.map fun k => eta k c).sum / z.length)

/-- The probability of class `y` in the correspondence model if the words have the topics `z`: the topic of one of the
words, uniformly chosen, generates the class. -/
noncomputable def pickProb (eta : Mat K C ℝ) (y : Fin C) (z : List (Fin K)) : ℝ :=
  (z.map fun k => eta k y).sum / z.length

/-! ### The specification is a probability distribution -/

theorem joint_add (beta : Mat K V ℝ) : ∀ (l : List (Fin V)) {ι : Type} (S : Finset ι) (F : ι → List (Fin K) → ℝ) (a : Vec K ℝ),
    joint beta (fun z => ∑ i ∈ S, F i z) a l = ∑ i ∈ S, joint beta (F i) a l := by
  intro l
  induction l with
  | nil => intro ι S F a; rfl
  | cons n l ih =>
    intro ι S F a
    simp only [joint]
    rw [Finset.sum_comm]
    refine Finset.sum_congr rfl fun k _ => ?_
    rw [ih S (fun i z => F i (k :: z)), Finset.mul_sum]

theorem joint_one (beta : Mat K V ℝ) : ∀ (l : List (Fin V)) (a : Vec K ℝ),
    joint beta (fun _ => 1) a l = evidence beta a l := by
  intro l
  induction l with
  | nil => intro a; rfl
  | cons n l ih => intro a; simp only [joint, evidence, ih]

theorem classProb_total (hC : 0 < C) (eta : Mat K C ℝ) (z : List (Fin K)) : ∑ y, classProb eta y z = 1 := by
  unfold classProb
  rw [← Finset.sum_div]
  exact div_self (Finset.sum_pos (fun c _ => Real.exp_pos _) ⟨⟨0, hC⟩, mem_univ _⟩).ne'

/-- The probabilities of a document with each of the classes sum to the probability of the document. -/
theorem joint_total (hC : 0 < C) (beta : Mat K V ℝ) (eta : Mat K C ℝ) (a : Vec K ℝ) (words : List (Fin V)) :
    ∑ y, joint beta (classProb eta y) a words = evidence beta a words := by
  rw [← joint_add, ← joint_one]
  simp only [classProb_total hC]

theorem classProb_pos (eta : Mat K C ℝ) (y : Fin C) (z : List (Fin K)) : 0 < classProb eta y z :=
  div_pos (Real.exp_pos _) (Finset.sum_pos (fun c _ => Real.exp_pos _) ⟨y, mem_univ _⟩)

theorem joint_nonneg {beta : Mat K V ℝ} (hb : ∀ k n, 0 ≤ beta k n) :
    ∀ (l : List (Fin V)) {F : List (Fin K) → ℝ} (_ : ∀ z, z.length = l.length → 0 < F z) {a : Vec K ℝ},
      (∀ k, 0 < a k) → 0 ≤ joint beta F a l := by
  intro l
  induction l with
  | nil => intro F hF a _; exact (hF [] rfl).le
  | cons n l ih =>
    intro F hF a ha
    exact Finset.sum_nonneg fun k _ => mul_nonneg (mul_nonneg (div_nonneg (ha k).le
      (Finset.sum_nonneg fun j _ => (ha j).le)) (hb k n)) (ih (fun z hz => hF _ (by simp [hz])) (single_pos ha k))

theorem joint_pos {beta : Mat K V ℝ} (hb : ∀ k n, 0 ≤ beta k n) :
    ∀ (l : List (Fin V)) (_ : ∀ n ∈ l, ∃ k, 0 < beta k n) {F : List (Fin K) → ℝ}
      (_ : ∀ z, z.length = l.length → 0 < F z) {a : Vec K ℝ}, (∀ k, 0 < a k) → 0 < joint beta F a l := by
  intro l
  induction l with
  | nil => intro _ F hF a _; exact hF [] rfl
  | cons n l ih =>
    intro hl F hF a ha
    obtain ⟨k, hk⟩ := hl n List.mem_cons_self
    have hA : 0 < ∑ j, a j := Finset.sum_pos (fun k _ => ha k) ⟨k, mem_univ _⟩
    exact Finset.sum_pos' (fun k _ => mul_nonneg (mul_nonneg (div_nonneg (ha k).le hA.le) (hb k n))
      (joint_nonneg hb l (fun z hz => hF _ (by simp [hz])) (single_pos ha k)))
      ⟨k, mem_univ _, mul_pos (mul_pos (div_pos (ha k) hA) hk)
        (ih (fun n hn => hl n (List.mem_cons_of_mem _ hn)) (fun z hz => hF _ (by simp [hz])) (single_pos ha k))⟩

/-! ### Expectations under the variational distribution -/

/-- The expectation of a function of the topics of the words if they are independent, with distributions `phi`. -/
noncomputable def expect (phi : Mat K V ℝ) : (List (Fin K) → ℝ) → List (Fin V) → ℝ
  | G, [] => G []
  | G, n :: l => ∑ k, phi k n * expect phi (fun z => G (k :: z)) l

theorem expect_congr (phi : Mat K V ℝ) : ∀ (l : List (Fin V)) {G G' : List (Fin K) → ℝ}
    (_ : ∀ z, z.length = l.length → G z = G' z), expect phi G l = expect phi G' l := by
  intro l
  induction l with
  | nil => intro G G' h; exact h [] rfl
  | cons n l ih =>
    intro G G' h
    exact Finset.sum_congr rfl fun k _ => by rw [ih fun z hz => h (k :: z) (by simp [hz])]

theorem expect_mono {phi : Mat K V ℝ} : ∀ (l : List (Fin V)) (_ : ∀ n ∈ l, IsDist fun k => phi k n)
    {G G' : List (Fin K) → ℝ} (_ : ∀ z, z.length = l.length → G z ≤ G' z), expect phi G l ≤ expect phi G' l := by
  intro l
  induction l with
  | nil => intro _ G G' h; exact h [] rfl
  | cons n l ih =>
    intro hd G G' h
    exact Finset.sum_le_sum fun k _ => mul_le_mul_of_nonneg_left
      (ih (fun n hn => hd n (List.mem_cons_of_mem _ hn)) fun z hz => h (k :: z) (by simp [hz]))
      ((hd n List.mem_cons_self).1 k)

theorem expect_const {phi : Mat K V ℝ} (c : ℝ) : ∀ (l : List (Fin V)) (_ : ∀ n ∈ l, IsDist fun k => phi k n),
    expect phi (fun _ => c) l = c := by
  intro l
  induction l with
  | nil => intro _; rfl
  | cons n l ih =>
    intro hd
    simp only [expect, ih fun n hn => hd n (List.mem_cons_of_mem _ hn)]
    rw [← Finset.sum_mul, (hd n List.mem_cons_self).2, one_mul]

theorem expect_sum (phi : Mat K V ℝ) : ∀ (l : List (Fin V)) {ι : Type} (S : Finset ι) (G : ι → List (Fin K) → ℝ),
    expect phi (fun z => ∑ i ∈ S, G i z) l = ∑ i ∈ S, expect phi (G i) l := by
  intro l
  induction l with
  | nil => intro ι S G; rfl
  | cons n l ih =>
    intro ι S G
    simp only [expect]
    rw [Finset.sum_comm]
    refine Finset.sum_congr rfl fun k _ => ?_
    rw [ih S (fun i z => G i (k :: z)), Finset.mul_sum]

theorem expect_lin (phi : Mat K V ℝ) (c d : ℝ) : ∀ (l : List (Fin V)) (G G' : List (Fin K) → ℝ),
    expect phi (fun z => c * G z + d * G' z) l = c * expect phi G l + d * expect phi G' l := by
  intro l
  induction l with
  | nil => intro G G'; rfl
  | cons n l ih =>
    intro G G'
    simp only [expect]
    rw [Finset.mul_sum, Finset.mul_sum, ← Finset.sum_add_distrib]
    refine Finset.sum_congr rfl fun k _ => ?_
    rw [ih]
    ring

/-- A sum over the words. -/
theorem expect_words {phi : Mat K V ℝ} (f : Fin V → Fin K → ℝ) : ∀ (l : List (Fin V))
    (_ : ∀ n ∈ l, IsDist fun k => phi k n),
    expect phi (fun z => (List.zipWith f l z).sum) l = (l.map fun n => ∑ k, phi k n * f n k).sum := by
  intro l
  induction l with
  | nil => intro _; rfl
  | cons n l ih =>
    intro hd
    have hd' := fun n hn => hd n (List.mem_cons_of_mem _ hn)
    simp only [expect, List.zipWith_cons_cons, List.sum_cons, List.map_cons]
    rw [← ih hd']
    have : ∀ k, expect phi (fun z => f n k + (List.zipWith f l z).sum) l =
        f n k + expect phi (fun z => (List.zipWith f l z).sum) l := by
      intro k
      have := expect_lin phi 1 1 l (fun _ => f n k) (fun z => (List.zipWith f l z).sum)
      simp only [one_mul, expect_const _ l hd'] at this
      exact this
    simp only [this, mul_add, Finset.sum_add_distrib]
    rw [← Finset.sum_mul, (hd n List.mem_cons_self).2, one_mul]

/-- A product over the words. -/
theorem expect_prod {phi : Mat K V ℝ} (e : Fin K → ℝ) : ∀ (l : List (Fin V)),
    expect phi (fun z => (z.map e).prod) l = (l.map fun n => ∑ k, phi k n * e k).prod := by
  intro l
  induction l with
  | nil => rfl
  | cons n l ih =>
    simp only [expect, List.map_cons, List.prod_cons]
    rw [← ih, Finset.sum_mul]
    refine Finset.sum_congr rfl fun k _ => ?_
    have := expect_lin phi (e k) 0 l (fun z => (z.map e).prod) (fun _ => 0)
    simp only [zero_mul, add_zero] at this
    rw [this]
    ring

theorem expect_pos {phi : Mat K V ℝ} : ∀ (l : List (Fin V)) (_ : ∀ n ∈ l, IsDist fun k => phi k n)
    {G : List (Fin K) → ℝ} (_ : ∀ z, z.length = l.length → 0 < G z), 0 < expect phi G l := by
  intro l
  induction l with
  | nil => intro _ G h; exact h [] rfl
  | cons n l ih =>
    intro hd G h
    have hdn := hd n List.mem_cons_self
    have hpos : ∀ k, 0 < expect phi (fun z => G (k :: z)) l := fun k =>
      ih (fun n hn => hd n (List.mem_cons_of_mem _ hn)) fun z hz => h (k :: z) (by simp [hz])
    obtain ⟨k, hk⟩ : ∃ k, phi k n ≠ 0 := by
      by_contra hcon
      push Not at hcon
      have := hdn.2
      simp [hcon] at this
    exact Finset.sum_pos' (fun k _ => mul_nonneg (hdn.1 k) (hpos k).le)
      ⟨k, mem_univ _, mul_pos (lt_of_le_of_ne (hdn.1 k) (Ne.symm hk)) (hpos k)⟩

/-- Jensen's inequality for the logarithm. -/
theorem expect_log {phi : Mat K V ℝ} (l : List (Fin V)) (hd : ∀ n ∈ l, IsDist fun k => phi k n)
    {S : List (Fin K) → ℝ} (hS : ∀ z, z.length = l.length → 0 < S z) :
    expect phi (fun z => Real.log (S z)) l ≤ Real.log (expect phi S l) := by
  have hA := expect_pos l hd hS
  set A := expect phi S l with hAdef
  have h1 : expect phi (fun z => Real.log (S z)) l ≤ expect phi (fun z => A⁻¹ * S z + (Real.log A - 1) * 1) l := by
    refine expect_mono l hd fun z hz => ?_
    have := Real.log_le_sub_one_of_pos (div_pos (hS z hz) hA)
    rw [Real.log_div (hS z hz).ne' hA.ne'] at this
    have e : A⁻¹ * S z = S z / A := by rw [div_eq_inv_mul]
    rw [e]
    linarith
  rw [expect_lin phi A⁻¹ (Real.log A - 1) l S (fun _ => 1), expect_const _ l hd, ← hAdef, inv_mul_cancel₀ hA.ne'] at h1
  linarith

/-! ### The bound -/

theorem joint_bound (hK : 0 < K) {beta phi : Mat K V ℝ} (hb : ∀ k n, 0 ≤ beta k n) {g : Vec K ℝ}
    (hg : ∀ k, 0 < g k) : ∀ (l : List (Fin V)) (_ : ∀ n ∈ l, IsDist fun k => phi k n)
      (_ : ∀ n ∈ l, ∀ k, beta k n = 0 → phi k n = 0) {F : List (Fin K) → ℝ}
      (_ : ∀ z, z.length = l.length → 0 < F z) {a : Vec K ℝ}, (∀ k, 0 < a k) →
      ((∑ k, Real.log (Real.Gamma (g k))) - Real.log (Real.Gamma (∑ k, g k))
        + ∑ k, (a k - g k) * expectedLog g k)
      - ((∑ k, Real.log (Real.Gamma (a k))) - Real.log (Real.Gamma (∑ k, a k)))
      + (l.map fun n => ∑ k, phi k n * (expectedLog g k + Real.log (beta k n) - Real.log (phi k n))).sum
      + expect phi (fun z => Real.log (F z)) l ≤ Real.log (joint beta F a l) := by
  intro l
  induction l with
  | nil =>
    intro _ _ F _ a ha
    have : Nonempty (Fin K) := ⟨⟨0, hK⟩⟩
    have := Digamma.logMultiBeta_tangent (univ : Finset (Fin K)) univ_nonempty (fun k _ => hg k)
      (fun k _ => ha k)
    simp only [Digamma.psi] at this
    simp only [joint, expect, List.map_nil, List.sum_nil, expectedLog]
    linarith
  | cons n l ih =>
    intro hd hs F hF a ha
    have hA := sum_pos_of hK ha
    have hdn := hd n List.mem_cons_self
    have hF' : ∀ k, ∀ z : List (Fin K), z.length = l.length → 0 < F (k :: z) := fun k z hz => hF _ (by simp [hz])
    have hev : ∀ k, 0 < joint beta (fun z => F (k :: z)) (a + Pi.single k 1) l := fun k =>
      joint_pos hb l (fun n hn => by
        by_contra hcon
        push Not at hcon
        have h1 := (hd n (List.mem_cons_of_mem _ hn)).2
        rw [Finset.sum_eq_zero fun k _ => hs n (List.mem_cons_of_mem _ hn) k (le_antisymm (hcon k) (hb k n))] at h1
        exact zero_ne_one h1) (hF' k) (single_pos ha k)
    have hc : ∀ k, 0 < a k / ∑ j, a j := fun k => div_pos (ha k) hA
    have hgibbs := gibbs (q := fun k => phi k n)
      (w := fun k => a k / (∑ j, a j) * beta k n * joint beta (fun z => F (k :: z)) (a + Pi.single k 1) l) hdn.1 hdn.2
      (fun k => mul_nonneg (mul_nonneg (hc k).le (hb k n)) (hev k).le) fun k hk => by
        rcases mul_eq_zero.1 hk with h | h
        · exact hs n List.mem_cons_self k ((mul_eq_zero.1 h).resolve_left (hc k).ne')
        · exact absurd h (hev k).ne'
    rw [joint]
    refine le_trans ?_ hgibbs
    rw [List.map_cons, List.sum_cons, expect]
    set R := (l.map fun n => ∑ k, phi k n * (expectedLog g k + Real.log (beta k n) - Real.log (phi k n))).sum
    set G := (∑ k, Real.log (Real.Gamma (g k))) - Real.log (Real.Gamma (∑ k, g k))
    set A := (∑ k, Real.log (Real.Gamma (a k))) - Real.log (Real.Gamma (∑ k, a k))
    have key : ∀ k, phi k n * (G + (∑ j, (a j - g j) * expectedLog g j) - A + R +
        (expectedLog g k + Real.log (beta k n) - Real.log (phi k n)) + expect phi (fun z => Real.log (F (k :: z))) l) ≤
        phi k n * (Real.log (a k / (∑ j, a j) * beta k n * joint beta (fun z => F (k :: z)) (a + Pi.single k 1) l) -
          Real.log (phi k n)) := by
      intro k
      by_cases hbk : beta k n = 0
      · have : phi k n = 0 := hs n List.mem_cons_self k hbk
        rw [this, zero_mul, zero_mul]
      · refine mul_le_mul_of_nonneg_left ?_ (hdn.1 k)
        rw [Real.log_mul (mul_ne_zero (hc k).ne' hbk) (hev k).ne', Real.log_mul (hc k).ne' hbk]
        have h1 := ih (fun n hn => hd n (List.mem_cons_of_mem _ hn)) (fun n hn => hs n (List.mem_cons_of_mem _ hn))
          (hF' k) (single_pos ha k)
        rw [logBeta_single ha k] at h1
        have h2 : ∑ j, ((a + Pi.single k 1 : Vec K ℝ) j - g j) * expectedLog g j =
            (∑ j, (a j - g j) * expectedLog g j) + expectedLog g k := by
          have : ∀ j, ((a + Pi.single k 1 : Vec K ℝ) j - g j) * expectedLog g j =
              (a j - g j) * expectedLog g j + if j = k then expectedLog g k else 0 := by
            intro j
            rw [Pi.add_apply]
            by_cases h : j = k
            · subst h; rw [Pi.single_eq_same, if_pos rfl]; ring
            · rw [Pi.single_eq_of_ne h, if_neg h]; ring
          rw [Finset.sum_congr rfl fun j _ => this j, Finset.sum_add_distrib, Finset.sum_ite_eq' univ k]
          simp
        rw [h2] at h1
        linarith
    refine le_trans (le_of_eq ?_) (Finset.sum_le_sum fun k _ => key k)
    simp only [mul_add (phi _ n) _ (expect phi _ l), mul_add (phi _ n) (G + (∑ j, (a j - g j) * expectedLog g j) - A + R)]
    rw [Finset.sum_add_distrib, Finset.sum_add_distrib, ← Finset.sum_mul, hdn.2]
    ring

/-- The bound of the topic model, plus the expected logarithm of the probability of the class. -/
theorem joint_bound' (hK : 0 < K) {m : Model K V C} (hm : m.Valid) {words : List (Fin V)} {s : VP K V}
    (hg : ∀ k, 0 < s.gamma k) (hd : ∀ n ∈ words, IsDist fun k => s.phi k n) (hf : Finite words m s)
    {F : List (Fin K) → ℝ} (hF : ∀ z, z.length = words.length → 0 < F z) :
    bound words m s + expect s.phi (fun z => Real.log (F z)) words ≤ Real.log (joint m.beta F m.alpha words) := by
  refine le_trans (le_of_eq ?_) (joint_bound hK hm.beta_nonneg hg words hd hf hF hm.alpha_pos)
  rw [bound, elbo_split_phi]
  have : ∑ k, (m.alpha k - s.gamma k) * expectedLog s.gamma k =
      (∑ k, (m.alpha k - 1) * expectedLog s.gamma k) - ∑ k, (s.gamma k - 1) * expectedLog s.gamma k := by
    rw [← Finset.sum_sub_distrib]
    exact Finset.sum_congr rfl fun k _ => by ring
  rw [this]
  ring

theorem zipWith_snd {α β : Type} (f : β → ℝ) : ∀ (l : List α) (z : List β), z.length = l.length →
    List.zipWith (fun _ k => f k) l z = z.map f := by
  intro l
  induction l with
  | nil => intro z hz; cases z with
    | nil => rfl
    | cons => simp at hz
  | cons a l ih => intro z hz; cases z with
    | nil => simp at hz
    | cons b z =>
      rw [List.zipWith_cons_cons, List.map_cons, ih z (by simpa using hz)]

theorem exp_sum (f : Fin K → ℝ) (N : ℝ) (z : List (Fin K)) :
    Real.exp ((z.map f).sum / N) = (z.map fun k => Real.exp (f k / N)).prod := by
  induction z with
  | nil => simp
  | cons k z ih => rw [List.map_cons, List.sum_cons, add_div, Real.exp_add, ih, List.map_cons, List.prod_cons]

theorem countsOf_sum (words : List (Fin V)) : ∑ n, (countsOf words n : ℝ) = words.length := by
  have := sum_words words fun _ => 1
  simp at this
  exact this.symm

/-- The expected normaliser, if the occurrences of a word have independent topics, is at most the one of the step, in
which all occurrences of a word have the same topic. -/
theorem partition_le {words : List (Fin V)} {phi : Mat K V ℝ} (hd : ∀ n ∈ words, IsDist fun k => phi k n)
    (eta : Mat K C ℝ) :
    ∑ c, (words.map fun n => ∑ k, phi k n * Real.exp (eta k c / words.length)).prod ≤
      docPartition exact (countsOf words) eta phi := by
  unfold docPartition
  refine Finset.sum_le_sum fun c _ => ?_
  rw [Finset.prod_list_map_count]
  have e : words.toFinset = univ.filter (fun l => countsOf words l ≠ 0) := by
    ext n
    rw [List.mem_toFinset, mem_filter, and_iff_right (mem_univ _)]
    exact countsOf_ne.symm
  rw [e, countsOf_sum]
  refine Finset.prod_le_prod (fun n hn => ?_) fun n hn => ?_
  · rw [mem_filter] at hn
    exact pow_nonneg (Finset.sum_nonneg fun k _ => mul_nonneg ((hd n (countsOf_ne.1 hn.2)).1 k) (Real.exp_pos _).le) _
  · rw [mem_filter] at hn
    have hdn := hd n (countsOf_ne.1 hn.2)
    refine (Real.pow_arith_mean_le_arith_mean_pow univ (fun k => phi k n) _ (fun k _ => hdn.1 k) hdn.2
      (fun k _ => (Real.exp_pos _).le) (words.count n)).trans (le_of_eq ?_)
    refine Finset.sum_congr rfl fun k _ => ?_
    rw [← Real.exp_nat_mul]
    show _ = phi k n * Real.exp _
    congr 2
    show (words.count n : ℝ) * _ = (words.count n : ℝ) / _ * _
    ring

/-- **C134**, the mathematical part: for every document, repeated words included, the bound that the supervised step
improves (C98) is a lower bound of the logarithm of the probability of the document and its class. -/
theorem C134_bound {words : List (Fin V)} {m : Model K V C} (hm : m.Valid) (hK : 0 < K) (y : Fin C)
    {s : VP K V} (hg : ∀ k, 0 < s.gamma k) (hd : ∀ n ∈ words, IsDist fun k => s.phi k n) (hf : Finite words m s) :
    supBound words y m s ≤ Real.log (joint m.beta (classProb m.eta y) m.alpha words) := by
  refine le_trans ?_ (joint_bound' hK hm hg hd hf fun z _ => classProb_pos m.eta y z)
  set N : ℝ := (words.length : ℝ) with hN
  have h1 : expect s.phi (fun z => Real.log (classProb m.eta y z)) words =
      (words.map fun n => ∑ k, s.phi k n * m.eta k y).sum / N
        - expect s.phi (fun z => Real.log (∑ c, Real.exp ((z.map fun k => m.eta k c).sum / N))) words := by
    have h2 := expect_words (phi := s.phi) (fun _ k => m.eta k y) words hd
    have h3 := expect_lin s.phi N⁻¹ (-1) words (fun z => (List.zipWith (fun _ k => m.eta k y) words z).sum)
      (fun z => Real.log (∑ c, Real.exp ((z.map fun k => m.eta k c).sum / N)))
    rw [h2] at h3
    rw [div_eq_inv_mul, sub_eq_add_neg, ← neg_one_mul, ← h3]
    refine expect_congr s.phi words fun z hz => ?_
    rw [zipWith_snd _ _ _ hz, classProb, hz, Real.log_div (Real.exp_pos _).ne'
      (Finset.sum_pos (fun c _ => Real.exp_pos _) ⟨y, mem_univ _⟩).ne', Real.log_exp]
    ring
  have h4 : expect s.phi (fun z => Real.log (∑ c, Real.exp ((z.map fun k => m.eta k c).sum / N))) words ≤
      Real.log (docPartition exact (countsOf words) m.eta s.phi) := by
    have hpos : ∀ z : List (Fin K), 0 < ∑ c, Real.exp ((z.map fun k => m.eta k c).sum / N) := fun z =>
      Finset.sum_pos (fun c _ => Real.exp_pos _) ⟨y, mem_univ _⟩
    refine (expect_log words hd fun z _ => hpos z).trans ?_
    refine Real.log_le_log (expect_pos words hd fun z _ => hpos z) ?_
    rw [expect_sum]
    simp only [exp_sum, expect_prod]
    exact partition_le hd m.eta
  rw [h1]
  unfold supBound
  linarith

/-! ### What is reported -/

/-- An exponential function that is too small makes the reported normaliser too small. -/
theorem partition_close {words : List (Fin V)} (hw : words.Nodup) {phi : Mat K V ℝ}
    (hd : ∀ n ∈ words, IsDist fun k => phi k n) (eta : Mat K C ℝ) {ε : ℝ}
    (hε : ∀ k c, eta k c / words.length - Real.log (P.exp (eta k c / words.length)) ≤ ε) (y : Fin C) :
    Real.log (docPartition exact (countsOf words) eta phi) ≤
      Real.log (docPartition P (countsOf words) eta phi) + words.length * ε := by
  have hone : ∀ n, countsOf words n ≠ 0 → countsOf words n = 1 := fun n hn =>
    le_antisymm (List.nodup_iff_count_le_one.1 hw n) (Nat.pos_of_ne_zero hn)
  set S := univ.filter (fun l => countsOf words l ≠ 0) with hS
  have hcard : S.card = words.length := by
    rw [← List.toFinset_card_of_nodup hw]
    congr 1
    ext n
    rw [List.mem_toFinset, hS, mem_filter, and_iff_right (mem_univ _)]
    exact countsOf_ne
  have hterm : ∀ k c, Real.exp (eta k c / words.length) ≤ Real.exp ε * P.exp (eta k c / words.length) := by
    intro k c
    have h1 : eta k c / words.length ≤ ε + Real.log (P.exp (eta k c / words.length)) := by linarith [hε k c]
    have h2 := Real.exp_le_exp.2 h1
    rwa [Real.exp_add, Real.exp_log (P.exp_pos _)] at h2
  have hfac : ∀ (Q : Prims) c, ∏ l ∈ S, ∑ j, phi j l * Q.exp ((countsOf words l : ℝ) / (∑ i, (countsOf words i : ℝ)) * eta j c) =
      ∏ l ∈ S, ∑ j, phi j l * Q.exp (eta j c / words.length) := by
    intro Q c
    refine Finset.prod_congr rfl fun n hn => Finset.sum_congr rfl fun k _ => ?_
    rw [hS, mem_filter] at hn
    rw [countsOf_sum, hone n hn.2, Nat.cast_one, one_div, inv_mul_eq_div]
  have hsum : ∀ (Q : Prims) c, 0 < ∏ l ∈ S, ∑ j, phi j l * Q.exp (eta j c / words.length) := by
    intro Q c
    refine Finset.prod_pos fun n hn => ?_
    rw [hS, mem_filter] at hn
    have hdn := hd n (countsOf_ne.1 hn.2)
    obtain ⟨k, hk⟩ : ∃ k, phi k n ≠ 0 := by
      by_contra hcon
      push Not at hcon
      have := hdn.2
      simp [hcon] at this
    exact Finset.sum_pos' (fun k _ => mul_nonneg (hdn.1 k) (Q.exp_pos _).le)
      ⟨k, mem_univ _, mul_pos (lt_of_le_of_ne (hdn.1 k) (Ne.symm hk)) (Q.exp_pos _)⟩
  have hle : docPartition exact (countsOf words) eta phi ≤
      Real.exp (words.length * ε) * docPartition P (countsOf words) eta phi := by
    unfold docPartition
    rw [Finset.mul_sum]
    refine Finset.sum_le_sum fun c _ => ?_
    rw [← hS, hfac, hfac, Real.exp_nat_mul, ← hcard, ← Finset.prod_const, ← Finset.prod_mul_distrib]
    refine Finset.prod_le_prod (fun n hn => ?_) fun n hn => ?_
    all_goals
      rw [hS, mem_filter] at hn
      have hdn := hd n (countsOf_ne.1 hn.2)
    · exact Finset.sum_nonneg fun k _ => mul_nonneg (hdn.1 k) (exact.exp_pos _).le
    · rw [Finset.mul_sum]
      refine Finset.sum_le_sum fun k _ => ?_
      have := mul_le_mul_of_nonneg_left (hterm k c) (hdn.1 k)
      show phi k n * Real.exp _ ≤ _
      rw [hcard]
      linarith
  have hposE : ∀ Q : Prims, 0 < docPartition Q (countsOf words) eta phi := by
    intro Q
    unfold docPartition
    refine Finset.sum_pos (fun c _ => ?_) ⟨y, mem_univ _⟩
    rw [← hS, hfac]
    exact hsum Q c
  have := Real.log_le_log (hposE exact) hle
  rw [Real.log_mul (Real.exp_pos _).ne' (hposE P).ne', Real.log_exp] at this
  linarith

/-- What both steps have in common. -/
theorem reported_le {words : List (Fin V)} (hw : words.Nodup) {m : Model K V C} (hm : m.Valid) (hK : 0 < K)
    {y : Fin C} {b : ℝ} (hb : 0 < b) (hbeta : ∀ n ∈ words, ∀ k, m.beta k n = 0 ∨ b ≤ m.beta k n) {ε : ℝ}
    (hε : ∀ k c, m.eta k c / words.length - Real.log (P.exp (m.eta k c / words.length)) ≤ ε) {s : VP K V} {l : ℝ}
    (hc : Counts (countsOf words) m.alpha s) (hg : ∀ k, 0 < s.gamma k) (hd : ∀ n ∈ words, IsDist fun k => s.phi k n)
    (hf : Finite words m s) (h : SupervisedBound P (countsOf words) y m s l) :
    l ≤ Real.log (joint m.beta (classProb m.eta y) m.alpha words) + words.length * (1 / b) / 10 ^ 44
      + words.length * ε := by
  obtain ⟨u, hu, _, rfl⟩ := h
  obtain ⟨pg, hpg⟩ := mapOpt_psi P hg
  obtain ⟨ps, hps⟩ := P.psi_some (∑ k, s.gamma k) (sum_pos_of hK hg)
  rw [C68_reported_elbo_partial hw (mapOpt_eq.1 hpg) hps hu,
    elbo_counts guarded hc m.beta _ (expectedLog s.gamma)]
  have h1 := (C68_guard (alpha := m.alpha) (gamma := s.gamma) (t := expectedLog s.gamma) hb hd
    fun n hn k => (hbeta n hn k).imp_left (hf n hn k)).1
  have h2 := C134_bound hm hK y hg hd hf
  have h3 := partition_close hw hd m.eta hε y
  unfold supBound bound at h2
  have h4 : ∑ k, m.eta k y * ((∑ n, (countsOf words n : ℝ) * s.phi k n) / ∑ n, (countsOf words n : ℝ)) =
      (words.map fun n => ∑ k, s.phi k n * m.eta k y).sum / words.length := by
    rw [countsOf_sum, sum_words, Finset.sum_div]
    simp only [Finset.mul_sum, Finset.sum_div]
    rw [Finset.sum_comm]
    refine Finset.sum_congr rfl fun n _ => Finset.sum_congr rfl fun k _ => ?_
    ring
  rw [h4]
  linarith

/-- The hypothesis on the exponential function holds for `fast_exp` with one thousandth, or two thousandths of the
largest parameter of the classes if that is more. -/
theorem fast_close {eta : Mat K C ℝ} {M : ℝ} (hM : ∀ k c, |eta k c| ≤ M) {N : ℕ} (hN : N ≠ 0) (k : Fin K) (c : Fin C) :
    eta k c / N - Real.log (fastPrims.exp (eta k c / N)) ≤ max 1 (2 * M) / 1000 := by
  have hN1 : (1 : ℝ) ≤ N := by exact_mod_cast Nat.one_le_iff_ne_zero.2 hN
  have hx : |eta k c / N| ≤ M := by
    rw [abs_div, abs_of_nonneg (by linarith : (0 : ℝ) ≤ N)]
    exact (div_le_self (abs_nonneg _) hN1).trans (hM k c)
  have hmax : (1 : ℝ) ≤ max 1 (2 * M) := le_max_left _ _
  have hexp := fastPrims_exp (eta k c / N)
  rcases le_or_gt |eta k c / N| 100 with h100 | h100
  · obtain ⟨u, hu1, _, hu3⟩ := FastExp.C30_accuracy _ h100
    have : u = fastPrims.exp (eta k c / N) := Option.some.inj (hu1.symm.trans hexp)
    rw [← this]
    have h1 := (abs_le.1 hu3).1
    have h2 : max 1 (2 * |eta k c / N|) * (1 / 1023 + 23 / 10 ^ 14) ≤ max 1 (2 * M) * (1 / 1000) :=
      mul_le_mul (max_le_max le_rfl (by linarith)) (by norm_num) (by norm_num) (by linarith)
    linarith
  · have := Option.some.inj ((FastExp.C30_outside _ h100).symm.trans hexp)
    rw [← this, Real.log_exp, sub_self]
    positivity

theorem proportional_finite {words : List (Fin V)} {m : Model K V C} (hm : m.Valid) (hk : ∀ n ∈ words, m.Known n)
    {e : Fin K → Fin V → ℝ} (he : ∀ k n, 0 < e k n) {s : VP K V}
    (h : Proportional s.phi fun k n => m.beta k n * e k n) : Finite words m s := by
  intro n hn k hb
  have h1 := (h n).1 k
  simp only [hb, zero_mul] at h1
  obtain ⟨j, hj⟩ := hk n hn
  have : 0 < ∑ j, m.beta j n * e j n :=
    Finset.sum_pos' (fun k _ => mul_nonneg (hm.beta_nonneg k n) (he k n).le) ⟨j, mem_univ _, mul_pos hj (he j n)⟩
  exact (mul_eq_zero.1 h1).resolve_right this.ne'

/-- **C134**, fast supervised step, for documents in which no word occurs twice: the likelihood that is reported is at
most the logarithm of the probability of the document and its class, up to the effect of the `1e-44` added inside the
logarithms and that of the exponential function, `ε` per word.  It is missing for documents with repeated words, for
which it is false (`C134_repeated_word`). -/
theorem C134_fast_partial {words : List (Fin V)} (hne : words ≠ []) (hw : words.Nodup) {m : Model K V C} (hm : m.Valid)
    (hK : 0 < K) (hk : ∀ n ∈ words, m.Known n) {b : ℝ} (hb : 0 < b)
    (hbeta : ∀ n ∈ words, ∀ k, m.beta k n = 0 ∨ b ≤ m.beta k n) {ε : ℝ}
    (hε : ∀ k c, m.eta k c / words.length - Real.log (P.exp (m.eta k c / words.length)) ≤ ε) {y : Fin C}
    {cfg : Cfg} {w draw : ℝ} (hr : RunsOnce cfg.iterations cfg.tolerance (countsOf words) m) {s : VP K V} {l : ℝ}
    (h : fast P cfg w draw (countsOf words) (y : ℤ) m = some (s, .value l)) :
    l ≤ Real.log (joint m.beta (classProb m.eta y) m.alpha words) + words.length * (1 / b) / 10 ^ 44
      + words.length * ε := by
  have hX : ∃ n, countsOf words n ≠ 0 := by
    obtain ⟨n, hn⟩ := List.exists_mem_of_ne_nil words hne
    exact ⟨n, countsOf_ne.2 hn⟩
  have hdr : draw < cfg.computeLikelihood := by
    by_contra hd
    unfold fast report bernoulli at h
    simp [hd, Option.bind_eq_some_iff] at h
  have hres := C35_fast hm hK hX h
  have hd : ∀ n ∈ words, IsDist fun k => s.phi k n := fun n hn => ⟨fun k => hres.1 k n, hres.2.1 n (hk n hn)⟩
  refine reported_le hw hm hK hb hbeta hε (fun k => (C37_fast hm h k).1)
    (fun k => (hm.alpha_pos k).trans_le (C37_fast hm h k).2) hd ?_ (C76_fast hX hdr h)
  obtain ⟨s1, h1⟩ := (C38_fast hm hK h).ran hm rfl hr
  obtain ⟨psi, sm, es, _, _, _, h2, _⟩ := h1.1 hX
  exact proportional_finite hm hk (fun _ _ => P.exp_pos _) h2

/-- **C134**, supervised step, for documents in which no word occurs twice.  It is missing for documents with repeated
words, for which it is false (`C134_repeated_word_supervised`). -/
theorem C134_supervised_partial {words : List (Fin V)} (hw : words.Nodup) {m : Model K V C} (hm : m.Valid)
    (hK : 0 < K) (hk : ∀ n ∈ words, m.Known n) {b : ℝ} (hb : 0 < b)
    (hbeta : ∀ n ∈ words, ∀ k, m.beta k n = 0 ∨ b ≤ m.beta k n) {ε : ℝ}
    (hε : ∀ k c, m.eta k c / words.length - Real.log (P.exp (m.eta k c / words.length)) ≤ ε) {y : Fin C}
    {cfg : Cfg} {fp : ℕ} (hfp : 0 < fp) {draw : ℝ} (hr : RunsOnce cfg.iterations cfg.tolerance (countsOf words) m)
    {s : VP K V} {l : ℝ} (h : supervised P cfg fp draw (countsOf words) (y : ℤ) m = some (s, .value l)) :
    l ≤ Real.log (joint m.beta (classProb m.eta y) m.alpha words) + words.length * (1 / b) / 10 ^ 44
      + words.length * ε :=
  reported_le hw hm hK hb hbeta hε (fun k => (C37_supervised hm hK h k).1)
    (fun k => (hm.alpha_pos k).trans_le (C37_supervised hm hK h k).2) (fun n _ => C35_supervised hm hK h n)
    (C98_finite hm hK hk hfp hr h) (C76_supervised hm hK h)

/-! ### A repeated word -/

/-- Two topics, each of which knows one word only, and two classes whose parameters are still zero, as they are when
training starts. -/
noncomputable def separateZero : Model 2 2 2 where
  alpha := fun _ => 1
  beta := fun k n => if k = n then 1 else 0
  eta := fun _ _ => 0

theorem separateZero_valid : separateZero.Valid where
  alpha_pos := fun k => by simp [separateZero]
  beta_nonneg := fun k n => by simp only [separateZero]; split <;> norm_num

theorem separateZero_known (n : Fin 2) : separateZero.Known n := ⟨n, by simp [separateZero]⟩

theorem separateZero_joint (y : Fin 2) :
    joint separateZero.beta (classProb separateZero.eta y) separateZero.alpha [0, 0] = 1 / 6 := by
  simp only [joint, classProb, separateZero, Fin.sum_univ_two]
  norm_num

theorem separateZero_report {y : Fin 2} {s : VP 2 2} {l : ℝ} (hd : IsDist fun k => s.phi k 0)
    (hf : Finite [(0 : Fin 2), 0] separateZero s) (hc : Counts (countsOf [0, 0]) separateZero.alpha s)
    (h : SupervisedBound fastPrims (countsOf [0, 0]) y separateZero s l) :
    Real.log (joint separateZero.beta (classProb separateZero.eta y) separateZero.alpha [0, 0]) + 3 / 10 < l := by
  have hphi1 : s.phi 1 0 = 0 := hf 0 (by simp) 1 (by simp [separateZero])
  have hphi0 : s.phi 0 0 = 1 := by
    have := hd.2
    rw [Fin.sum_univ_two, hphi1, add_zero] at this
    exact this
  obtain ⟨u, hu, _, rfl⟩ := h
  have hgap := repeated_gap (alpha := separateZero.alpha) (beta := separateZero.beta) rfl rfl hphi0 hphi1 hc hu
  have e : univ.filter (fun n : Fin 2 => countsOf [(0 : Fin 2), 0] n ≠ 0) = {0} := by decide
  have hp : docPartition fastPrims (countsOf [0, 0]) separateZero.eta s.phi = 2 * fastPrims.exp 0 := by
    unfold docPartition
    rw [e]
    simp only [Finset.prod_singleton, Fin.sum_univ_two, hphi0, hphi1, separateZero, mul_zero]
    ring
  have h0 : Real.log (fastPrims.exp 0) ≤ 1 / 1000 := by
    obtain ⟨v, hv1, _, hv3⟩ := FastExp.C30_accuracy 0 (by norm_num)
    have : v = fastPrims.exp 0 := Option.some.inj (hv1.symm.trans (fastPrims_exp 0))
    rw [← this]
    have := (abs_le.1 hv3).2
    norm_num at this ⊢
    linarith
  rw [separateZero_joint, hp, Real.log_mul two_ne_zero (fastPrims.exp_pos 0).ne']
  have hl : Real.log (1 / 6) = Real.log (1 / 3) - Real.log 2 := by
    rw [← Real.log_div (by norm_num) (by norm_num)]
    norm_num
  rw [hl]
  simp only [separateZero, zero_mul, Finset.sum_const_zero, add_zero]
  linarith

/-- **C134** is false when a word occurs twice: with two topics, each of which knows a single word, and parameters of
the classes that are still zero, the likelihood that the fast supervised step reports for two copies of the first word
exceeds the logarithm of the probability of the document and its class, which is `1/6`, by more than `3/10`. -/
theorem C134_repeated_word {cfg : Cfg} {w draw : ℝ}
    (hr : RunsOnce cfg.iterations cfg.tolerance (countsOf [0, 0]) separateZero) (y : Fin 2) {s : VP 2 2} {l : ℝ}
    (h : fast fastPrims cfg w draw (countsOf [0, 0]) (y : ℤ) separateZero = some (s, .value l)) :
    joint separateZero.beta (classProb separateZero.eta y) separateZero.alpha [0, 0] = 1 / 6 ∧
    Real.log (joint separateZero.beta (classProb separateZero.eta y) separateZero.alpha [0, 0]) + 3 / 10 < l := by
  have hm := separateZero_valid
  have hK : 0 < 2 := by norm_num
  have hX : ∃ n, countsOf [(0 : Fin 2), 0] n ≠ 0 := ⟨0, by simp [countsOf]⟩
  have hdr : draw < cfg.computeLikelihood := by
    by_contra hd
    unfold fast report bernoulli at h
    simp [hd, Option.bind_eq_some_iff] at h
  have hres := C35_fast hm hK hX h
  refine ⟨separateZero_joint y, separateZero_report ⟨fun k => hres.1 k 0, hres.2.1 0 (separateZero_known 0)⟩ ?_
    (fun k => (C37_fast hm h k).1) (C76_fast hX hdr h)⟩
  obtain ⟨s1, h1⟩ := (C38_fast hm hK h).ran hm rfl hr
  obtain ⟨psi, sm, es, _, _, _, h2, _⟩ := h1.1 hX
  exact proportional_finite hm (fun n _ => separateZero_known n) (fun _ _ => fastPrims.exp_pos _) h2

/-- **C134** is false for the supervised step and the same document. -/
theorem C134_repeated_word_supervised {cfg : Cfg} {fp : ℕ} (hfp : 0 < fp) {draw : ℝ}
    (hr : RunsOnce cfg.iterations cfg.tolerance (countsOf [0, 0]) separateZero) (y : Fin 2) {s : VP 2 2} {l : ℝ}
    (h : supervised fastPrims cfg fp draw (countsOf [0, 0]) (y : ℤ) separateZero = some (s, .value l)) :
    joint separateZero.beta (classProb separateZero.eta y) separateZero.alpha [0, 0] = 1 / 6 ∧
    Real.log (joint separateZero.beta (classProb separateZero.eta y) separateZero.alpha [0, 0]) + 3 / 10 < l := by
  have hm := separateZero_valid
  have hK : 0 < 2 := by norm_num
  exact ⟨separateZero_joint y, separateZero_report (C35_supervised hm hK h 0)
    (C98_finite hm hK (fun n _ => separateZero_known n) hfp hr h) (fun k => (C37_supervised hm hK h k).1)
    (C76_supervised hm hK h)⟩

/-! ### The correspondence model (C101) -/

theorem pickProb_pos {eta : Mat K C ℝ} {y : Fin C} (he : ∀ k, 0 < eta k y) {z : List (Fin K)} (hz : z ≠ []) :
    0 < pickProb eta y z := by
  refine div_pos ?_ (by exact_mod_cast List.length_pos_iff.2 hz)
  have : ∀ z : List (Fin K), z ≠ [] → 0 < (z.map fun k => eta k y).sum := by
    intro z
    induction z with
    | nil => intro h; exact absurd rfl h
    | cons k z ih =>
      intro _
      rw [List.map_cons, List.sum_cons]
      rcases z with _ | ⟨j, z⟩
      · simpa using he k
      · exact add_pos (he k) (ih (by simp))
  exact this z hz

/-- If the parameters of the classes of a topic are a distribution then so are the probabilities of the classes. -/
theorem pickProb_total {eta : Mat K C ℝ} (he : ∀ k, ∑ c, eta k c = 1) {z : List (Fin K)} (hz : z ≠ []) :
    ∑ y, pickProb eta y z = 1 := by
  unfold pickProb
  rw [← Finset.sum_div]
  have : ∀ z : List (Fin K), ∑ y, (z.map fun k => eta k y).sum = z.length := by
    intro z
    induction z with
    | nil => simp
    | cons k z ih =>
      simp only [List.map_cons, List.sum_cons, Finset.sum_add_distrib, ih, he, List.length_cons]
      push_cast
      ring
  rw [this]
  exact div_self (by exact_mod_cast (List.length_pos_iff.2 hz).ne')

/-- One word at a time, the inequality between the weighted sum of the logarithms and the logarithm of the sum. -/
theorem pick_gibbs {A : ℝ} (hA : 0 < A) {tau : Vec V ℝ} (ht : ∀ n, 0 ≤ tau n) {e : Fin K → ℝ} (he : ∀ k, 0 < e k) :
    ∀ (l : List (Fin V)) (z : List (Fin K)), z.length = l.length →
      (List.zipWith (fun n k => tau n * Real.log (e k)) l z).sum - (l.map fun n => tau n * Real.log (tau n)).sum ≤
        (l.map tau).sum * Real.log A + ((z.map e).sum / A - (l.map tau).sum) := by
  intro l
  induction l with
  | nil =>
    intro z hz
    have : z = [] := List.length_eq_zero_iff.1 hz
    subst this
    simp
  | cons n l ih =>
    intro z hz
    cases z with
    | nil => simp at hz
    | cons k z =>
      have h1 := ih z (by simpa using hz)
      have h2 := gibbs_term (ht n) (he k).le hA fun h => absurd h (he k).ne'
      simp only [List.zipWith_cons_cons, List.map_cons, List.sum_cons]
      rw [add_div]
      linarith

/-- **C101**, the mathematical part: what the correspondence step computes is a lower bound of the logarithm of the
probability of the document and its class whenever `tau` is a distribution of the chosen word.  Missing: that it is one,
which is false (`C101_not_a_choice`, `C101_exceeds_evidence`). -/
theorem C101_evidence_partial {words : List (Fin V)} (hne : words ≠ []) {m : Model K V C} (hm : m.Valid) (hK : 0 < K)
    {y : Fin C} (he : ∀ k, 0 < m.eta k y) {s : VP K V × Vec V ℝ} (hg : ∀ k, 0 < s.1.gamma k)
    (hd : ∀ n ∈ words, IsDist fun k => s.1.phi k n) (hf : Finite words m s.1) (ht : ∀ n, 0 ≤ s.2 n)
    (ht1 : (words.map s.2).sum = 1) :
    choiceBound words y m s ≤ Real.log (joint m.beta (pickProb m.eta y) m.alpha words) := by
  have hz : ∀ z : List (Fin K), z.length = words.length → z ≠ [] := by
    rintro z hz rfl
    exact hne (List.length_eq_zero_iff.1 hz.symm)
  refine le_trans ?_ (joint_bound' hK hm hg hd hf fun z hl => pickProb_pos he (hz z hl))
  have hN : (0 : ℝ) < words.length := by exact_mod_cast List.length_pos_iff.2 hne
  have h1 : choiceScore Real.log words y m.eta s.1.phi s.2 ≤
      expect s.1.phi (fun z => Real.log (pickProb m.eta y z)) words := by
    have h2 := expect_words (phi := s.1.phi) (fun n k => s.2 n * Real.log (m.eta k y)) words hd
    have h3 := expect_lin s.1.phi 1 (-(Real.log words.length + (words.map fun n => s.2 n * Real.log (s.2 n)).sum)) words
      (fun z => (List.zipWith (fun n k => s.2 n * Real.log (m.eta k y)) words z).sum) (fun _ => 1)
    rw [h2, expect_const _ words hd] at h3
    have h4 : choiceScore Real.log words y m.eta s.1.phi s.2 =
        expect s.1.phi (fun z => 1 * (List.zipWith (fun n k => s.2 n * Real.log (m.eta k y)) words z).sum +
          -(Real.log words.length + (words.map fun n => s.2 n * Real.log (s.2 n)).sum) * 1) words := by
      rw [h3]
      unfold choiceScore
      have e : (fun n => ∑ k, s.1.phi k n * (s.2 n * Real.log (m.eta k y))) =
          fun n => s.2 n * ∑ k, s.1.phi k n * Real.log (m.eta k y) := by
        funext n
        rw [Finset.mul_sum]
        exact Finset.sum_congr rfl fun k _ => by ring
      rw [e]
      ring
    rw [h4]
    refine expect_mono words hd fun z hl => ?_
    have hpos := pickProb_pos he (hz z hl)
    unfold pickProb at hpos ⊢
    rw [hl] at hpos ⊢
    have hS : 0 < (z.map fun k => m.eta k y).sum := by
      have := mul_pos hpos hN
      rwa [div_mul_cancel₀ _ hN.ne'] at this
    have h5 := pick_gibbs hS ht he words z hl
    rw [ht1, div_self hS.ne', one_mul, sub_self, add_zero] at h5
    rw [Real.log_div hS.ne' hN.ne']
    linarith
  unfold choiceBound
  linarith

/-- In particular for a document that has every word of the vocabulary exactly once, after any number of iterations. -/
theorem C101_evidence_run_partial {words : List (Fin V)} (hV : 0 < V) (hone : ∀ n, countsOf words n = 1)
    {m : Model K V C} (hm : m.Valid) (hK : 0 < K) (hk : ∀ n ∈ words, m.Known n) {y : Fin C} (he : ∀ k, 0 < m.eta k y)
    {cfg : Cfg} {mu draw : ℝ} {D : ℕ} (hr : RunsOnce cfg.iterations cfg.tolerance (countsOf words) m)
    {s : VP K V × Vec V ℝ} {r : Report} (h : correspondence P cfg mu D draw (countsOf words) (y : ℤ) m = some (s, r)) :
    choiceBound words y m s ≤ Real.log (joint m.beta (pickProb m.eta y) m.alpha words) := by
  have hres := C35_correspondence hm hK h
  have ht := C35_correspondence_tau hm hK hV h
  have hne : words ≠ [] := by
    rintro rfl
    have := hone ⟨0, hV⟩
    simp [countsOf] at this
  refine C101_evidence_partial hne hm hK he (fun k => (hm.alpha_pos k).trans_le (C37_correspondence hm hK h k).2)
    (fun n hn => ⟨fun k => hres.1 k n, hres.2.1 n (hk n hn)⟩) ?_ ht.1 ?_
  · obtain ⟨s1, psi, _, h2, _⟩ := (C38_correspondence hm hK h).ran hm rfl hr
    exact proportional_finite hm hk (fun _ _ => mul_pos (P.exp_pos _) (P.exp_pos _)) h2
  · rw [sum_words]
    simpa [hone] using ht.2

/-! ### The hypotheses are met -/

example : ∃ s l, fast fastPrims ⟨10, 1 / 100, 1⟩ 1 0 (countsOf [0, 1]) ((1 : Fin 2) : ℤ) demo = some (s, .value l) ∧
    l ≤ Real.log (joint demo.beta (classProb demo.eta 1) demo.alpha [0, 1]) + 2 * (1 / (1 / 4)) / 10 ^ 44
      + 2 * (max 1 (2 * 1) / 1000) := by
  have hk : ∀ n ∈ [(0 : Fin 3), 1], demo.Known n := fun n hn =>
    demo_words_known n (by revert hn; revert n; decide)
  obtain ⟨s, l, h⟩ := C76_fast_value (P := fastPrims) (cfg := ⟨10, 1 / 100, 1⟩) (draw := 0) (w := 1) (y := (1 : Fin 2))
    (X := countsOf [0, 1]) demo_valid (by norm_num) ⟨0, by simp [countsOf]⟩ (fun n hn => hk n (countsOf_ne.1 hn)) (by norm_num)
  refine ⟨s, l, h, ?_⟩
  have := C134_fast_partial (words := [0, 1]) (b := 1 / 4) (by simp) (by decide) demo_valid (by norm_num) hk (by norm_num) ?_
    (fast_close (M := 1) (fun k c => ?_) (by simp)) ?_ h
  · simpa using this
  · intro n hn k
    have hn2 : n ≠ 2 := by rintro rfl; revert hn; decide
    right
    simp only [demo, if_neg hn2]
    split <;> norm_num
  · simp only [demo]
    split <;> norm_num
  · refine ⟨by norm_num, ?_⟩
    simp [demo, countsOf, Fin.sum_univ_three]
    norm_num

example : ∃ s l, fast fastPrims ⟨10, 1 / 100, 1⟩ 1 0 (countsOf [0, 0]) ((1 : Fin 2) : ℤ) separateZero = some (s, .value l) ∧
    Real.log (1 / 6) + 3 / 10 < l := by
  obtain ⟨s, l, h⟩ := C76_fast_value (P := fastPrims) (cfg := ⟨10, 1 / 100, 1⟩) (draw := 0) (w := 1) (y := (1 : Fin 2))
    (X := countsOf [0, 0]) separateZero_valid (by norm_num) ⟨0, by simp [countsOf]⟩ (fun n _ => separateZero_known n)
    (by norm_num)
  have := C134_repeated_word ⟨by norm_num, by simp [separateZero, countsOf]; norm_num⟩ 1 h
  rw [this.1] at this
  exact ⟨s, l, h, this.2⟩

end Verif.EStep
