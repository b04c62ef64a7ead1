import Verif.Model.RoundedCorpus
import Verif.Props.Bitwise
import Verif.Props.Corpus

/-! Property C106: the class priors in floating point. -/
namespace Verif.Rounded

/-! ### Rounding whole numbers -/

theorem roundTo_nat_mul {p : ℕ} (hp : 0 < p) {z : ℕ} (hz : z ≤ 2 ^ p) (j : ℤ) :
    roundTo p (z * 2 ^ j) = z * 2 ^ j := by
  rcases Nat.eq_zero_or_pos z with rfl | hpos
  · have : nearest 0 = 0 := by simpa using nearest_int 0
    simp [roundTo, this]
  rcases Nat.lt_or_ge z (2 ^ p) with h | h
  · have hlog := Nat.log_lt_of_lt_pow (b := 2) hpos.ne' h
    have h1 := Nat.pow_log_le_self 2 hpos.ne'
    have h2 := Nat.lt_pow_succ_log_self (b := 2) (by norm_num) z
    set e := Nat.log 2 z
    have key : ((z * 2 ^ (p - 1 - e) : ℕ) : ℝ) * 2 ^ (j - ((p - 1 - e : ℕ) : ℤ)) = z * 2 ^ j := by
      push_cast
      rw [zpow_sub₀ (by norm_num), zpow_natCast]
      field_simp
    have a1 : 2 ^ (p - 1) ≤ z * 2 ^ (p - 1 - e) := by
      calc 2 ^ (p - 1) = 2 ^ e * 2 ^ (p - 1 - e) := by rw [← pow_add]; congr 1; omega
        _ ≤ _ := Nat.mul_le_mul_right _ h1
    have a2 : z * 2 ^ (p - 1 - e) < 2 ^ p := by
      calc z * 2 ^ (p - 1 - e) < 2 ^ (e + 1) * 2 ^ (p - 1 - e) := Nat.mul_lt_mul_of_pos_right h2 (by positivity)
        _ = 2 ^ p := by rw [← pow_add]; congr 1; omega
    rw [← key]
    have := roundTo_int hp (z := ((z * 2 ^ (p - 1 - e) : ℕ) : ℤ)) (by exact_mod_cast a1) (by exact_mod_cast a2)
      (j - ((p - 1 - e : ℕ) : ℤ))
    exact_mod_cast this
  · have e : z = 2 ^ p := le_antisymm hz h
    have key : ((2 ^ (p - 1) : ℕ) : ℝ) * 2 ^ (j + 1) = z * 2 ^ j := by
      rw [e, zpow_add₀ (by norm_num)]
      push_cast
      obtain ⟨q, rfl⟩ : ∃ q, p = q + 1 := ⟨p - 1, by omega⟩
      rw [Nat.add_sub_cancel, pow_succ, zpow_one]
      ring
    rw [← key]
    have := roundTo_int hp (z := ((2 ^ (p - 1) : ℕ) : ℤ)) (by push_cast; exact le_rfl)
      (by push_cast; exact pow_lt_pow_right₀ (by norm_num) (by omega)) (j + 1)
    exact_mod_cast this

theorem roundTo_nat {p : ℕ} (hp : 0 < p) {z : ℕ} (hz : z ≤ 2 ^ p) : roundTo p z = z := by
  have := roundTo_nat_mul hp hz 0
  simpa using this

theorem roundTo_full {p : ℕ} (hp : 2 ≤ p) : roundTo p (2 ^ p + 1) = 2 ^ p := by
  obtain ⟨q, rfl⟩ : ∃ q, p = q + 2 := ⟨p - 2, by omega⟩
  have e : (2 : ℝ) ^ (q + 2) + 1 = (((2 ^ (q + 1) : ℕ) : ℤ) + 1 / 2) * 2 ^ (1 : ℤ) := by
    push_cast
    rw [zpow_one]
    ring
  rw [e, roundTo_scaled (by omega)]
  · rw [nearest_half (by push_cast; exact ⟨2 ^ q, by ring⟩)]
    push_cast
    rw [zpow_one]
    ring
  · push_cast
    linarith
  · push_cast
    have : (1 : ℝ) ≤ 2 ^ q := one_le_pow₀ (by norm_num)
    rw [pow_succ, pow_succ, pow_succ]
    linarith

theorem roundTo_succ {p : ℕ} (hp : 2 ≤ p) (n : ℕ) :
    roundTo p (((min n (2 ^ p) : ℕ) : ℝ) + 1) = ((min (n + 1) (2 ^ p) : ℕ) : ℝ) := by
  rcases Nat.lt_or_ge n (2 ^ p) with h | h
  · rw [min_eq_left h.le, min_eq_left h]
    exact_mod_cast roundTo_nat (p := p) (by omega) (z := n + 1) h
  · rw [min_eq_right h, min_eq_right (by omega)]
    push_cast
    exact roundTo_full hp

/-! ### Counting -/

theorem rCount_spec {p : ℕ} (hp : 2 ≤ p) : ∀ (y : List ℤ) (f : ℕ → ℕ) (k : ℕ), (∀ l ∈ y, 0 ≤ l ∧ l < k) →
    rCount (roundTo p) ((List.range k).map fun c : ℕ => ((min (f c) (2 ^ p) : ℕ) : ℝ)) y =
      some ((List.range k).map fun c : ℕ => ((min (f c + y.count (c : ℤ)) (2 ^ p) : ℕ) : ℝ))
  | [], f, k, _ => by simp [rCount]
  | l :: y, f, k, h => by
    have hl := h l (by simp)
    rw [rCount, rIncr, if_neg (by omega), List.getElem?_map, List.getElem?_range (by omega)]
    simp only [Option.map_some]
    rw [roundTo_succ hp]
    have e : ((List.range k).map fun c : ℕ => ((min (f c) (2 ^ p) : ℕ) : ℝ)).set l.toNat
        ((min (f l.toNat + 1) (2 ^ p) : ℕ) : ℝ) =
        (List.range k).map fun c : ℕ => ((min (f c + if c = l.toNat then 1 else 0) (2 ^ p) : ℕ) : ℝ) := by
      apply List.ext_getElem (by simp)
      intro i h1 h2
      rw [List.getElem_set]
      by_cases hi : l.toNat = i
      · simp [hi]
      · simp [hi, Ne.symm hi]
    rw [e, rCount_spec hp y _ k fun a ha => h a (by simp [ha])]
    congr 1
    refine List.map_congr_left fun c hc => ?_
    rw [List.count_cons]
    by_cases hc' : c = l.toNat
    · have : l = (c : ℤ) := by omega
      rw [if_pos hc', if_pos (by simp [this])]
      congr 2
      omega
    · have : ¬ l = (c : ℤ) := by omega
      simp [hc', this]

/-- The count of a class is exact up to `2 ^ p` documents and then stays there. -/
theorem rPriors_counts {p : ℕ} (hp : 2 ≤ p) {y : List ℤ} {m : ℤ} (hm : Corpus.maxCoeff y = some m)
    (hpos : ∀ l ∈ y, 0 ≤ l) : rCount (roundTo p) (List.replicate (m + 1).toNat 0) y =
      some ((List.range (m + 1).toNat).map fun c : ℕ => ((min (y.count (c : ℤ)) (2 ^ p) : ℕ) : ℝ)) := by
  have hmax := (Corpus.maxCoeff_spec y m hm).2
  have h := rCount_spec hp y (fun _ => 0) (m + 1).toNat fun l hl => ⟨hpos l hl, by
    have := hmax l hl
    have := hpos l hl
    omega⟩
  have e : List.replicate (m + 1).toNat (0 : ℝ) = (List.range (m + 1).toNat).map fun _ : ℕ => ((min 0 (2 ^ p) : ℕ) : ℝ) := by
    apply List.ext_getElem (by simp)
    intro i h1 h2
    simp
  rw [e, h]
  simp

theorem summation_nat {p : ℕ} (hp : 0 < p) {l : List ℝ} {s : ℝ} (h : Summation (roundTo p) l s) :
    ∀ f : List ℕ, l = f.map (fun n : ℕ => (n : ℝ)) → f.sum ≤ 2 ^ p → s = (f.sum : ℕ) := by
  induction h with
  | nil =>
    intro f hf _
    have : f = [] := by simpa using hf.symm
    simp [this]
  | one x =>
    intro f hf _
    obtain ⟨n, t, rfl⟩ : ∃ n t, f = n :: t := by
      cases f with
      | nil => cases hf
      | cons n t => exact ⟨n, t, rfl⟩
    simp only [List.map_cons, List.cons.injEq] at hf
    have ht : t = [] := by simpa using hf.2.symm
    simp [hf.1, ht]
  | @add l l' l'' a b _ _ _ _ hperm iha ihb =>
    intro f hf hle
    have hmem : ∀ x ∈ l'', ∃ n : ℕ, (n : ℝ) = x := by
      intro x hx
      rw [hf] at hx
      obtain ⟨n, _, rfl⟩ := List.mem_map.1 hx
      exact ⟨n, rfl⟩
    have lift : ∀ t : List ℝ, (∀ x ∈ t, ∃ n : ℕ, (n : ℝ) = x) → ∃ g : List ℕ, t = g.map fun n : ℕ => (n : ℝ) := by
      intro t
      induction t with
      | nil => exact fun _ => ⟨[], rfl⟩
      | cons x t ih =>
        intro h
        obtain ⟨n, hn⟩ := h x (by simp)
        obtain ⟨g, hg⟩ := ih fun x hx => h x (by simp [hx])
        exact ⟨n :: g, by rw [List.map_cons, hn, ← hg]⟩
    obtain ⟨g, hg⟩ := lift l fun x hx => hmem x (hperm.mem_iff.2 (by simp [hx]))
    obtain ⟨g', hg'⟩ := lift l' fun x hx => hmem x (hperm.mem_iff.2 (by simp [hx]))
    have hs : f.sum = g.sum + g'.sum := by
      have := hperm.sum_eq
      rw [hf, hg, hg', List.sum_append] at this
      have e : ∀ t : List ℕ, (t.map fun n : ℕ => (n : ℝ)).sum = (t.sum : ℕ) := by
        intro t
        induction t with
        | nil => simp
        | cons x t ih => rw [List.map_cons, List.sum_cons, List.sum_cons, ih, Nat.cast_add]
      rw [e, e, e] at this
      exact_mod_cast this
    rw [iha g hg (by omega), ihb g' hg' (by omega), hs]
    exact_mod_cast roundTo_nat hp (z := g.sum + g'.sum) (by omega)

theorem sum_count_range (y : List ℤ) (k : ℕ) (h : ∀ l ∈ y, 0 ≤ l ∧ l < k) :
    ((List.range k).map fun c : ℕ => y.count (c : ℤ)).sum = y.length := by
  induction y with
  | nil => simp
  | cons l y ih =>
    have hl := h l (by simp)
    have := ih fun a ha => h a (by simp [ha])
    have e : ((List.range k).map fun c : ℕ => (l :: y).count (c : ℤ)) =
        (List.range k).map fun c : ℕ => y.count (c : ℤ) + if c = l.toNat then 1 else 0 := by
      refine List.map_congr_left fun c _ => ?_
      rw [List.count_cons]
      congr 1
      by_cases hc : c = l.toNat
      · rw [if_pos hc, if_pos (by simp; omega)]
      · rw [if_neg hc, if_neg (by simp; omega)]
    have e2 : ((List.range k).map fun c : ℕ => if c = l.toNat then 1 else 0).sum = 1 := by
      have hlt : l.toNat < k := by omega
      have hf : ((List.range k).map fun c : ℕ => if c = l.toNat then 1 else 0).sum =
          ∑ c ∈ Finset.range k, if c = l.toNat then 1 else 0 := rfl
      rw [hf, Finset.sum_ite_eq' (Finset.range k) l.toNat fun _ => 1, if_pos (Finset.mem_range.2 hlt)]
    rw [e, List.sum_map_add, this, e2, List.length_cons]

/-! ### C106 -/

theorem quotient_err {p : ℕ} {a s q : ℝ} (ha : 0 ≤ a) (hs : 0 < s) (h : Quotient (roundTo p) a s q) :
    |q - a / s| ≤ 3 * (1 / 2) ^ p * (a / s) := by
  have hu : (0 : ℝ) < (1 / 2) ^ p := by positivity
  have hu1 : (1 / 2 : ℝ) ^ p ≤ 1 := pow_le_one₀ (by norm_num) (by norm_num)
  have hq : 0 ≤ a / s := div_nonneg ha hs.le
  rcases h with rfl | rfl
  · refine (roundTo_err _).trans ?_
    rw [abs_of_nonneg hq]
    nlinarith
  · have h1 := roundTo_err (p := p) (1 / s)
    have h2 := roundTo_err (p := p) (a * roundTo p (1 / s))
    have hs' : 0 < 1 / s := by positivity
    rw [abs_of_pos hs', abs_le] at h1
    have e : a / s = a * (1 / s) := by ring
    have h3 : |a * roundTo p (1 / s) - a / s| ≤ (1 / 2) ^ p * (a / s) := by
      rw [e, ← mul_sub, abs_mul, abs_of_nonneg ha]
      calc a * |roundTo p (1 / s) - 1 / s| ≤ a * ((1 / 2) ^ p * (1 / s)) :=
            mul_le_mul_of_nonneg_left (abs_le.2 h1) ha
        _ = _ := by ring
    have h4 : |a * roundTo p (1 / s)| ≤ 2 * (a / s) := by
      have := abs_sub_abs_le_abs_sub (a * roundTo p (1 / s)) (a / s)
      rw [abs_of_nonneg hq] at this
      nlinarith
    have h5 := abs_sub_le (roundTo p (a * roundTo p (1 / s))) (a * roundTo p (1 / s)) (a / s)
    nlinarith [mul_le_mul_of_nonneg_left h4 hu.le]

theorem forall₂_map_left {A B D : Type} {R : B → D → Prop} {f : A → B} : ∀ {l : List A} {out : List D},
    List.Forall₂ R (l.map f) out → ∀ (i : ℕ) (a : A), l[i]? = some a → ∃ q, out[i]? = some q ∧ R (f a) q
  | [], _, _, i, a, h => by simp at h
  | b :: l, _, .cons h1 h2, 0, a, h => by
    simp only [List.getElem?_cons_zero, Option.some.injEq] at h
    exact ⟨_, rfl, h ▸ h1⟩
  | b :: l, _, .cons h1 h2, i + 1, a, h => by
    simp only [List.getElem?_cons_succ] at h ⊢
    exact forall₂_map_left h2 i a h

/-- **C106** (partial: at most `2 ^ p` documents).  With numbers of `p` bits the prior of a class is its frequency, up to
the error of one division.  Missing: more documents (`C106_stuck`, `C106_wrong`). -/
theorem C106_frequencies_partial {p : ℕ} (hp : 2 ≤ p) {y : List ℤ} {out : List ℝ} (h : RPriors (roundTo p) y out)
    (hpos : ∀ l ∈ y, 0 ≤ l) (hn : y.length ≤ 2 ^ p) {c : ℕ} {m : ℤ} (hm : m ∈ y) (hc : (c : ℤ) ≤ m) :
    ∃ q, out[c]? = some q ∧
      |q - y.count (c : ℤ) / y.length| ≤ 3 * (1 / 2) ^ p * (y.count (c : ℤ) / y.length) := by
  obtain ⟨m', v, s, h1, h2, h3, h4, h5, h6⟩ := h
  have hmax := (Corpus.maxCoeff_spec y m' h1).2
  rw [rPriors_counts hp h1 hpos] at h3
  have hcount : ∀ d : ℕ, min (y.count (d : ℤ)) (2 ^ p) = y.count (d : ℤ) := fun d =>
    min_eq_left (List.count_le_length.trans hn)
  simp only [hcount] at h3
  obtain rfl := Option.some_injective _ h3
  have hlab : ∀ l ∈ y, 0 ≤ l ∧ l < ((m' + 1).toNat : ℤ) := fun l hl => ⟨hpos l hl, by
    have := hmax l hl
    have := hpos l hl
    omega⟩
  have hs : s = (y.length : ℝ) := by
    have := summation_nat (by omega) h4 ((List.range (m' + 1).toNat).map fun c : ℕ => y.count (c : ℤ)) (by
      rw [List.map_map]; rfl) (by rw [sum_count_range y _ hlab]; exact hn)
    rwa [sum_count_range y _ hlab] at this
  have hlen : 0 < (y.length : ℝ) := by
    have := List.length_pos_of_mem hm
    exact_mod_cast this
  have hcm : c < (m' + 1).toNat := by
    have := hmax m hm
    omega
  obtain ⟨q, hq1, hq2⟩ := forall₂_map_left h6 c c (by simp [hcm])
  rw [hs] at hq2
  exact ⟨q, hq1, quotient_err (Nat.cast_nonneg _) hlen hq2⟩

theorem summation_one {fl : ℝ → ℝ} {x a : ℝ} {l : List ℝ} (h : Summation fl l a) (hl : l = [x]) : a = x := by
  cases h with
  | nil => cases hl
  | one y => simpa using hl
  | @add l1 l2 _ _ _ h1 h2 _ _ hp =>
    have := hp.length_eq
    rw [hl, List.length_append] at this
    have := List.length_pos_iff.2 h1
    have := List.length_pos_iff.2 h2
    simp at *
    omega

theorem summation_two {fl : ℝ → ℝ} {x s : ℝ} (h : Summation fl [x, x] s) : s = fl (x + x) := by
  generalize hl : [x, x] = l at h
  cases h with
  | nil => cases hl
  | one y => simp at hl
  | @add l1 l2 _ a b h1 h2 ha hb hp =>
    have hlen := hp.length_eq
    rw [← hl, List.length_append] at hlen
    have p1 := List.length_pos_iff.2 h1
    have p2 := List.length_pos_iff.2 h2
    simp only [List.length_cons, List.length_nil] at hlen
    obtain ⟨u, rfl⟩ := List.length_eq_one_iff.1 (show l1.length = 1 by omega)
    obtain ⟨w, rfl⟩ := List.length_eq_one_iff.1 (show l2.length = 1 by omega)
    have hu : u = x := by
      have := hp.mem_iff (a := u)
      rw [← hl] at this
      simpa using this
    have hw : w = x := by
      have := hp.mem_iff (a := w)
      rw [← hl] at this
      simpa using this
    rw [summation_one ha rfl, summation_one hb rfl, hu, hw]

/-- Labels of `2 ^ p` documents of class 0 and twice as many of class 1. -/
def bigCorpus (p : ℕ) : List ℤ := List.replicate (2 ^ p) 0 ++ List.replicate (2 * 2 ^ p) 1

theorem bigCorpus_max (p : ℕ) : Corpus.maxCoeff (bigCorpus p) = some 1 := by
  obtain ⟨m, hm⟩ := Option.isSome_iff_exists.1 (Corpus.maxCoeff_isSome (bigCorpus p) (by simp [bigCorpus]))
  obtain ⟨h1, h2⟩ := Corpus.maxCoeff_spec _ m hm
  have : (1 : ℤ) ≤ m := h2 1 (by simp [bigCorpus])
  rcases List.mem_append.1 h1 with h | h
  · have := (List.mem_replicate.1 h).2
    omega
  · rw [hm, (List.mem_replicate.1 h).2]

theorem bigCorpus_counts {p : ℕ} (hp : 2 ≤ p) :
    rCount (roundTo p) (List.replicate ((1 : ℤ) + 1).toNat 0) (bigCorpus p) = some [2 ^ p, 2 ^ p] := by
  rw [rPriors_counts hp (bigCorpus_max p) (by
    intro l hl
    rcases List.mem_append.1 hl with h | h <;> rw [(List.mem_replicate.1 h).2] <;> norm_num)]
  have c0 : (bigCorpus p).count 0 = 2 ^ p := by
    rw [bigCorpus, List.count_append, List.count_replicate, List.count_replicate]
    simp
  have c1 : (bigCorpus p).count 1 = 2 * 2 ^ p := by
    rw [bigCorpus, List.count_append, List.count_replicate, List.count_replicate]
    simp
  have hr : List.range ((1 : ℤ) + 1).toNat = [0, 1] := rfl
  rw [hr]
  simp [c0, c1]

theorem half_quotient {p : ℕ} (hp : 2 ≤ p) {q : ℝ} (h : Quotient (roundTo p) (2 ^ p) (2 ^ p + 2 ^ p) q) : q = 1 / 2 := by
  have f : roundTo p (1 / 2) = 1 / 2 := (facts hp).2.2.1
  have e1 : (2 : ℝ) ^ p / (2 ^ p + 2 ^ p) = 1 / 2 := by
    field_simp
    ring
  have e2 : roundTo p (1 / ((2 : ℝ) ^ p + 2 ^ p)) = 1 / (2 ^ p + 2 ^ p) := by
    have e : (1 / ((2 : ℝ) ^ p + 2 ^ p)) = ((1 : ℕ) : ℝ) * 2 ^ (-(p : ℤ) - 1) := by
      rw [zpow_sub₀ (by norm_num), zpow_neg, zpow_natCast, zpow_one]
      push_cast
      field_simp
      ring
    rw [e]
    exact roundTo_nat_mul (by omega) (z := 1) Nat.one_le_two_pow _
  rcases h with rfl | rfl
  · rw [e1, f]
  · rw [e2, mul_one_div, e1, f]

/-- **C106** is false for larger corpora: with `2 ^ p` documents of one class and twice as many of another the
priors are 1/2 and 1/2, whatever the order of the sum and the way of dividing; the frequencies are 1/3 and 2/3.  For
`float` these are 16 and 33 million documents. -/
theorem C106_wrong {p : ℕ} (hp : 2 ≤ p) : (∃ out, RPriors (roundTo p) (bigCorpus p) out) ∧
    ∀ out, RPriors (roundTo p) (bigCorpus p) out → out = [1 / 2, 1 / 2] ∧
      ((bigCorpus p).count 0 : ℝ) / (bigCorpus p).length = 1 / 3 ∧
      ((bigCorpus p).count 1 : ℝ) / (bigCorpus p).length = 2 / 3 := by
  have hsum : roundTo p (2 ^ p + 2 ^ p) = 2 ^ p + 2 ^ p := by
    have e : (2 : ℝ) ^ p + 2 ^ p = ((2 ^ p : ℕ) : ℝ) * 2 ^ (1 : ℤ) := by
      push_cast
      rw [zpow_one]
      ring
    rw [e]
    exact roundTo_nat_mul (by omega) le_rfl 1
  have hpow : (0 : ℝ) < 2 ^ p := by positivity
  constructor
  · refine ⟨[_, _], 1, _, _, bigCorpus_max p, by norm_num, bigCorpus_counts hp,
      .add (by simp) (by simp) (.one _) (.one _) (List.Perm.refl [2 ^ p, 2 ^ p]), ?_, .cons (.inl rfl) (.cons (.inl rfl) .nil)⟩
    rw [hsum]
    positivity
  · rintro out ⟨m, v, s, h1, _, h3, h4, h5, h6⟩
    rw [bigCorpus_max] at h1
    obtain rfl := Option.some_injective _ h1
    rw [bigCorpus_counts hp] at h3
    obtain rfl := Option.some_injective _ h3
    have hs := summation_two h4
    rw [hsum] at hs
    subst hs
    obtain ⟨q0, hq0, h6⟩ : ∃ q t, out = q :: t ∧ Quotient (roundTo p) (2 ^ p) (2 ^ p + 2 ^ p) q ∧
        List.Forall₂ (fun a q => Quotient (roundTo p) a (2 ^ p + 2 ^ p) q) [2 ^ p] t := by
      cases h6 with
      | cons a b => exact ⟨_, _, rfl, a, b⟩
    obtain ⟨rfl, ha, hb⟩ := h6
    have h0 := half_quotient hp ha
    cases hb with
    | cons a b =>
      cases b
      have c0 : (bigCorpus p).count 0 = 2 ^ p := by
        rw [bigCorpus, List.count_append, List.count_replicate, List.count_replicate]
        simp
      have c1 : (bigCorpus p).count 1 = 2 * 2 ^ p := by
        rw [bigCorpus, List.count_append, List.count_replicate, List.count_replicate]
        simp
      have cl : (bigCorpus p).length = 3 * 2 ^ p := by
        rw [bigCorpus, List.length_append, List.length_replicate, List.length_replicate]
        ring
      refine ⟨by rw [h0, half_quotient hp a], ?_, ?_⟩
      · rw [c0, cl]
        push_cast
        field_simp
      · rw [c1, cl]
        push_cast
        field_simp

/-- **C106**, counts: every class with at least `2 ^ p` documents is counted as one with `2 ^ p` documents. -/
theorem C106_stuck {p : ℕ} (hp : 2 ≤ p) {y : List ℤ} {m : ℤ} (hm : Corpus.maxCoeff y = some m) (hpos : ∀ l ∈ y, 0 ≤ l) :
    ∃ v, rCount (roundTo p) (List.replicate (m + 1).toNat 0) y = some v ∧ ∀ c : ℕ, (c : ℤ) ≤ m →
      v[c]? = some (if y.count (c : ℤ) ≤ 2 ^ p then (y.count (c : ℤ) : ℝ) else 2 ^ p) := by
  refine ⟨_, rPriors_counts hp hm hpos, fun c hc => ?_⟩
  have : c < (m + 1).toNat := by omega
  rw [List.getElem?_map, List.getElem?_range this]
  by_cases h : y.count (c : ℤ) ≤ 2 ^ p
  · rw [if_pos h, Option.map_some, min_eq_left h]
  · rw [if_neg h, Option.map_some, min_eq_right (not_le.1 h).le]
    push_cast
    rfl

/-! ### Instances -/

example : RPriors (roundTo 24) [0, 1, 1] [roundTo 24 (1 / 3), roundTo 24 (2 / 3)] := by
  have hm : Corpus.maxCoeff [0, 1, 1] = some 1 := rfl
  have h := rPriors_counts (p := 24) (by norm_num) hm (by simp)
  have hv : ((List.range ((1 : ℤ) + 1).toNat).map fun c : ℕ => ((min (List.count (c : ℤ) [0, 1, 1]) (2 ^ 24) : ℕ) : ℝ)) =
      [1, 2] := by
    have hr : List.range ((1 : ℤ) + 1).toNat = [0, 1] := rfl
    rw [hr]
    norm_num
  rw [hv] at h
  have hs : roundTo 24 (1 + 2) = 3 := by
    have := roundTo_nat (p := 24) (by norm_num) (z := 3) (by norm_num)
    norm_num at this ⊢
    exact this
  refine ⟨1, _, _, hm, by norm_num, h, .add (by simp) (by simp) (.one 1) (.one 2) (List.Perm.refl _), ?_, ?_⟩
  · rw [hs]
    norm_num
  · rw [hs]
    exact .cons (.inl rfl) (.cons (.inl rfl) .nil)

end Verif.Rounded
