import Verif.Model.Apps
import Mathlib.Data.Nat.Digits.Lemmas

/-! Properties C65 and C83: snapshots and the progress of the expectation step. -/
namespace Verif.Apps

open MathUtils

variable {P : Type}

/-! ### Specification -/

/-- The parameters of the epochs of a history. -/
def epochs (es : List (Event P)) : List P := es.filterMap fun
  | .epoch p => some p
  | _ => none

/-- The number a string of digits denotes. -/
def value (ds : List Char) : ℕ := ds.foldl (fun v c => 10 * v + (c.toNat - '0'.toNat)) 0

/-- `name` is `path`, an underscore and the number `k` with at least three digits, with no more zeros than
needed. -/
def IsName (path : List Char) (k : ℕ) (name : List Char) : Prop :=
  ∃ ds, name = path ++ '_' :: ds ∧ (∀ c ∈ ds, c.isDigit = true) ∧ value ds = k ∧ 3 ≤ ds.length ∧
    (3 < ds.length → ds.head? ≠ some '0')

/-! ### Names -/

theorem digit_lt (d : ℕ) (h : d < 10) : (Char.ofNat (48 + d)).isDigit = true ∧
    (Char.ofNat (48 + d)).toNat - '0'.toNat = d ∧ (Char.ofNat (48 + d) = '0' → d = 0) := by
  interval_cases d <;> decide

theorem value_append (a b : List Char) :
    value (a ++ b) = b.foldl (fun v c => 10 * v + (c.toNat - '0'.toNat)) (value a) := by
  simp [value]

theorem value_snoc (a : List Char) (c : Char) : value (a ++ [c]) = 10 * value a + (c.toNat - '0'.toNat) := by
  simp [value]

theorem value_zeros (n : ℕ) (l : List Char) : value (List.replicate n '0' ++ l) = value l := by
  have h : ∀ n, value (List.replicate n '0') = 0 := by
    intro n
    induction n with
    | zero => rfl
    | succ n ih => rw [List.replicate_succ', value_snoc, ih]; rfl
  rw [value_append, h]; rfl

theorem value_digits (l : List ℕ) (hl : ∀ d ∈ l, d < 10) :
    value (l.reverse.map fun d => Char.ofNat (48 + d)) = Nat.ofDigits 10 l := by
  induction l with
  | nil => rfl
  | cons d l ih =>
    have hd := digit_lt d (hl d (by simp))
    rw [List.reverse_cons, List.map_append, List.map_singleton, value_snoc, ih fun e he => hl e (by simp [he]),
      hd.2.1, Nat.ofDigits_cons]
    simp [add_comm]

theorem decimal_digit (n : ℕ) : ∀ c ∈ decimal n, c.isDigit = true := by
  intro c hc
  unfold decimal at hc
  split at hc
  · simp at hc; subst hc; decide
  · simp only [List.mem_map, List.mem_reverse] at hc
    obtain ⟨d, hd, rfl⟩ := hc
    exact (digit_lt d (Nat.digits_lt_base (by norm_num) hd)).1

theorem value_decimal (n : ℕ) : value (decimal n) = n := by
  unfold decimal
  split
  · next h => subst h; rfl
  · rw [value_digits _ fun d hd => Nat.digits_lt_base (by norm_num) hd, Nat.ofDigits_digits]

theorem decimal_head (n : ℕ) (hn : n ≠ 0) : (decimal n).head? ≠ some '0' := by
  unfold decimal
  rw [if_neg hn]
  have hne : Nat.digits 10 n ≠ [] := Nat.digits_ne_nil_iff_ne_zero.2 hn
  rw [List.head?_map, List.head?_reverse, List.getLast?_eq_some_getLast hne]
  intro h
  simp only [Option.map_some, Option.some.injEq] at h
  have hl := List.getLast_mem hne
  have h0 := (digit_lt _ (Nat.digits_lt_base (by norm_num) hl)).2.2 h
  exact Nat.getLast_digit_ne_zero 10 hn h0

theorem padded_isName (path : List Char) (k : ℕ) : IsName path k (path ++ ['_'] ++ padded k) := by
  refine ⟨padded k, by simp, ?_, ?_, ?_, ?_⟩
  · intro c hc
    rcases List.mem_append.1 hc with h | h
    · rw [List.eq_of_mem_replicate h]; decide
    · exact decimal_digit k c h
  · rw [padded, value_zeros, value_decimal]
  · simp only [padded, List.length_append, List.length_replicate]; omega
  · intro h
    have h3 : 3 - (decimal k).length = 0 := by
      simp only [padded, List.length_append, List.length_replicate] at h; omega
    have h4 : 3 < (decimal k).length := by
      simp only [padded, List.length_append, List.length_replicate] at h; omega
    rw [padded, h3, List.replicate_zero, List.nil_append]
    refine decimal_head k fun h0 => ?_
    subst h0
    simp [decimal] at h4

/-- **C65** (names).  Different epochs have different names, and none of them is the name of the model that is
saved at the end of the training. -/
theorem C65_names (path : List Char) (k k' : ℕ) (name name' : List Char) (h : IsName path k name)
    (h' : IsName path k' name') (hk : k ≠ k') : name ≠ name' ∧ name ≠ path := by
  obtain ⟨ds, rfl, -, hv, -⟩ := h
  obtain ⟨ds', rfl, -, hv', -⟩ := h'
  constructor
  · intro e
    rw [List.append_cancel_left_eq, List.cons.injEq] at e
    exact hk (by rw [← hv, ← hv', e.2])
  · intro e
    have := congrArg List.length e
    simp at this

theorem digit_inj (c d : Char) (hc : c.isDigit = true) (hd : d.isDigit = true)
    (h : c.toNat - '0'.toNat = d.toNat - '0'.toNat) : c = d := by
  have e : ∀ c : Char, c.isDigit = true → 48 ≤ c.toNat ∧ c.toNat ≤ 57 := by
    intro c hc
    simp only [Char.isDigit, Bool.and_eq_true, decide_eq_true_eq, ge_iff_le] at hc
    exact ⟨hc.1, hc.2⟩
  have h1 := e c hc
  have h2 := e d hd
  have h0 : '0'.toNat = 48 := rfl
  rw [h0] at h
  exact Char.toNat_inj.1 (by omega)

theorem digit_le (c : Char) (hc : c.isDigit = true) : c.toNat - '0'.toNat ≤ 9 := by
  simp only [Char.isDigit, Bool.and_eq_true, decide_eq_true_eq, ge_iff_le] at hc
  have h0 : '0'.toNat = 48 := rfl
  have h1 : c.toNat ≤ 57 := hc.2
  omega

theorem value_lt (l : List Char) (hl : ∀ c ∈ l, c.isDigit = true) : value l < 10 ^ l.length := by
  induction l using List.reverseRecOn with
  | nil => simp [value]
  | append_singleton l c ih =>
    have h1 := ih fun d hd => hl d (by simp [hd])
    have h2 := digit_le c (hl c (by simp))
    rw [value_snoc, List.length_append, List.length_singleton, pow_succ]
    omega

theorem value_ge (l : List Char) (hl : ∀ c ∈ l, c.isDigit = true) (h0 : l ≠ []) (hh : l.head? ≠ some '0') :
    10 ^ (l.length - 1) ≤ value l := by
  induction l using List.reverseRecOn with
  | nil => exact absurd rfl h0
  | append_singleton l c ih =>
    rw [value_snoc]
    by_cases hne : l = []
    · subst hne
      simp only [List.nil_append, List.head?_cons, ne_eq, Option.some.injEq, List.length_singleton,
        Nat.sub_self, pow_zero] at hh ⊢
      by_contra hlt
      exact hh (digit_inj c '0' (hl c (by simp)) (by decide) (by omega))
    · have h1 := ih (fun d hd => hl d (by simp [hd])) hne (by
        rwa [List.head?_append_of_ne_nil _ hne] at hh)
      have h2 : l.length ≠ 0 := by simpa using hne
      rw [List.length_append, List.length_singleton]
      obtain ⟨m, hm⟩ := Nat.exists_eq_succ_of_ne_zero h2
      rw [hm] at h1 ⊢
      simp only [Nat.succ_eq_add_one, Nat.add_sub_cancel] at h1 ⊢
      rw [pow_succ]
      omega

theorem value_inj (l l' : List Char) (hl : ∀ c ∈ l, c.isDigit = true) (hl' : ∀ c ∈ l', c.isDigit = true)
    (hlen : l.length = l'.length) (hv : value l = value l') : l = l' := by
  induction l using List.reverseRecOn generalizing l' with
  | nil => exact (List.length_eq_zero_iff.1 hlen.symm).symm
  | append_singleton l c ih =>
    rcases List.eq_nil_or_concat l' with rfl | ⟨m, d, rfl⟩
    · simp at hlen
    · rw [List.concat_eq_append] at hv hl' hlen ⊢
      rw [value_snoc, value_snoc] at hv
      have h1 := digit_le c (hl c (by simp))
      have h2 := digit_le d (hl' d (by simp))
      have h3 : c = d := digit_inj c d (hl c (by simp)) (hl' d (by simp)) (by omega)
      have h4 : l = m := ih m (fun e he => hl e (by simp [he])) (fun e he => hl' e (by simp [he]))
        (by simpa using hlen) (by omega)
      rw [h3, h4]

theorem digits_length_le (l l' : List Char) (hl : ∀ c ∈ l, c.isDigit = true) (hl' : ∀ c ∈ l', c.isDigit = true)
    (h3 : 3 ≤ l.length) (hh : 3 < l'.length → l'.head? ≠ some '0') (hv : value l = value l') :
    l'.length ≤ l.length := by
  by_contra hlt
  have h1 := value_lt l hl
  have h2 := value_ge l' hl' (by rintro rfl; simp at hlt) (hh (by omega))
  have h4 : 10 ^ l.length ≤ 10 ^ (l'.length - 1) := Nat.pow_le_pow_right (by norm_num) (by omega)
  omega

/-- The epoch determines the name. -/
theorem isName_unique (path : List Char) (k : ℕ) (name name' : List Char) (h : IsName path k name)
    (h' : IsName path k name') : name = name' := by
  obtain ⟨ds, rfl, hd, hv, h3, hh⟩ := h
  obtain ⟨ds', rfl, hd', hv', h3', hh'⟩ := h'
  have e := hv.trans hv'.symm
  rw [value_inj ds ds' hd hd' (le_antisymm (digits_length_le ds' ds hd' hd h3' hh e.symm)
    (digits_length_le ds ds' hd hd' h3 hh' e)) e]

/-! ### Snapshots -/

theorem snapshot_epoch (s : Snapshot P) (p : P) (hs : s.seen < intMax) (h0 : s.saveEvery ≠ 0) :
    s.onEvent (.epoch p) = some
      { s with
        seen := s.seen + 1
        files := if s.saveEvery ∣ s.seen + 1 then (s.path ++ ['_'] ++ padded (s.seen + 1).toNat, p) :: s.files
          else s.files } := by
  simp only [Snapshot.onEvent, incr, if_pos hs, Option.bind_some, remainder, if_neg h0, Option.map_some,
    Snapshot.snapshot, ← Int.dvd_iff_tmod_eq_zero]
  split <;> rfl

/-- The files for the epochs `ps`, when `k` epochs have come before. -/
theorem snapshot_feed (es : List (Event P)) (s : Snapshot P) (k : ℕ) (hk : s.seen = k) (h0 : s.saveEvery ≠ 0)
    (hm : (k : ℤ) + (epochs es).length ≤ intMax) :
    ∃ s', feed Snapshot.onEvent s es = some s' ∧ s'.path = s.path ∧ s'.saveEvery = s.saveEvery ∧
      s'.seen = k + (epochs es).length ∧
      s'.files.reverse = s.files.reverse ++ ((epochs es).zipIdx (k + 1)).filterMap fun q =>
        if s.saveEvery ∣ (q.2 : ℤ) then some (s.path ++ ['_'] ++ padded q.2, q.1) else none := by
  induction es generalizing s k with
  | nil => exact ⟨s, rfl, rfl, rfl, by simp [epochs, hk], by simp [epochs]⟩
  | cons e es ih =>
    cases e with
    | epoch p =>
      have he : epochs (Event.epoch p :: es) = p :: epochs es := rfl
      rw [he, List.length_cons] at hm
      push_cast at hm
      obtain ⟨s', h1, h2, h3, h4, h5⟩ := ih
        { s with
          seen := s.seen + 1
          files := if s.saveEvery ∣ s.seen + 1 then (s.path ++ ['_'] ++ padded (s.seen + 1).toNat, p) :: s.files
            else s.files } (k + 1) (by simp [hk]) h0 (by push_cast; omega)
      refine ⟨s', ?_, h2, h3, ?_, ?_⟩
      · rw [feed, List.foldlM_cons, snapshot_epoch s p (by omega) h0]; exact h1
      · rw [h4, he, List.length_cons]; push_cast; ring
      · rw [h5, he, List.zipIdx_cons, List.filterMap_cons]
        have e1 : s.seen + 1 = ((k + 1 : ℕ) : ℤ) := by rw [hk]; push_cast; rfl
        simp only [e1, Int.toNat_natCast]
        by_cases hd : s.saveEvery ∣ ((k + 1 : ℕ) : ℤ)
        · simp only [if_pos hd, List.reverse_cons, List.append_assoc, List.cons_append, List.nil_append]
        · simp only [if_neg hd]
    | expectation l => exact ih s k hk h0 hm
    | maximization l => exact ih s k hk h0 hm
    | other => exact ih s k hk h0 hm

/-- **C65.**  After any history of events the files that have been written are, in order, one for each epoch
whose number is a multiple of `n`: its contents are the parameters of that epoch, its name is the path and the
number of the epoch. -/
theorem C65_snapshots (path : List Char) (n : ℕ) (hn : 1 ≤ n) (es : List (Event P))
    (hm : (epochs es).length ≤ intMax) :
    ∃ s, feed Snapshot.onEvent (Snapshot.new path n) es = some s ∧
      List.Forall₂ (fun file q => file.2 = q.1 ∧ IsName path q.2 file.1) s.files.reverse
        (((epochs es).zipIdx 1).filter fun q => n ∣ q.2) := by
  obtain ⟨s, h1, -, -, -, h5⟩ := snapshot_feed es (Snapshot.new path n) 0 rfl
    (by simp only [Snapshot.new]; omega) (by simpa using hm)
  refine ⟨s, h1, ?_⟩
  rw [h5]
  simp only [Snapshot.new, List.reverse_nil, List.nil_append, Nat.zero_add, Int.natCast_dvd_natCast]
  generalize (epochs es).zipIdx 1 = l
  induction l with
  | nil => simp
  | cons q l ih =>
    by_cases hd : n ∣ q.2
    · rw [List.filterMap_cons_some (by rw [if_pos hd]), List.filter_cons_of_pos (by simpa using hd)]
      exact .cons ⟨rfl, padded_isName path q.2⟩ ih
    · rw [List.filterMap_cons_none (by rw [if_neg hd]), List.filter_cons_of_neg (by simpa using hd)]
      exact ih

/-- **C65** (nothing else).  The file for the epoch number `k` exists exactly if `n` divides `k`, and there is
only one with that name, which holds the parameters of that epoch. -/
theorem C65_file (path : List Char) (n : ℕ) (hn : 1 ≤ n) (es : List (Event P)) (hm : (epochs es).length ≤ intMax)
    (s : Snapshot P) (hs : feed Snapshot.onEvent (Snapshot.new path n) es = some s) (k : ℕ) (name : List Char)
    (hk : IsName path k name) (p : P) :
    (name, p) ∈ s.files ↔ 1 ≤ k ∧ n ∣ k ∧ (epochs es)[k - 1]? = some p := by
  obtain ⟨s', h1, -, -, -, h5⟩ := snapshot_feed es (Snapshot.new path n) 0 rfl
    (by simp only [Snapshot.new]; omega) (by simpa using hm)
  rw [hs, Option.some.injEq] at h1
  subst h1
  rw [← List.mem_reverse, h5]
  simp only [Snapshot.new, List.reverse_nil, List.nil_append, Nat.zero_add, Int.natCast_dvd_natCast,
    List.mem_filterMap, Option.ite_none_right_eq_some, Option.some.injEq, Prod.mk.injEq, Prod.exists,
    List.mem_zipIdx_iff_le_and_getElem?_sub]
  constructor
  · rintro ⟨q, j, ⟨hj, hq⟩, hd, hname, rfl⟩
    have : j = k := by
      by_contra hne
      exact (C65_names path j k _ name (hname ▸ padded_isName path j) hk hne).1 rfl
    subst this
    exact ⟨hj, hd, hq⟩
  · rintro ⟨hk1, hd, hq⟩
    exact ⟨p, k, ⟨hk1, hq⟩, hd, isName_unique path k _ _ (padded_isName path k) hk, rfl⟩

/-- **C65** (precondition).  With `n = 0` the first epoch is undefined behaviour: the applications add the
listener only if the number is positive. -/
theorem C65_zero (path : List Char) (p : P) (es : List (Event P)) :
    feed Snapshot.onEvent (Snapshot.new path 0) (.epoch p :: es) = none := by
  simp [feed, Snapshot.onEvent, Snapshot.new, incr, remainder, intMax]

/-- The hypotheses can hold: of five epochs the second and the fourth are saved. -/
example : ∃ s, feed Snapshot.onEvent (Snapshot.new "m".toList 2)
      [.epoch 10, .other, .epoch 20, .expectation .nan, .epoch 30, .epoch 40, .epoch 50] = some s ∧
    s.files.reverse = [("m_002".toList, 20), ("m_004".toList, 40)] := ⟨_, rfl, by decide +kernel⟩

/-- A number with more than three digits. -/
example : padded 12345 = "12345".toList ∧ padded 7 = "007".toList ∧ padded 1000 = "1000".toList := by
  decide +kernel

/-! ### The progress of the expectation step -/

/-- The numbers that are printed for `c` documents: the multiples of `n`. -/
def multiples (n c : ℕ) : List ℤ := ((List.range' 1 c).filter fun i => n ∣ i).map fun i => (i : ℤ)

/-- The documents of one epoch: events that are no end of an epoch. -/
def IsDocs (es : List (Event P)) : Prop := epochs es = []

/-- The number of documents. -/
def docs (es : List (Event P)) : ℕ := es.countP fun
  | .expectation _ => true
  | _ => false

theorem expectation_feed (es : List (Event P)) (hes : IsDocs es) (s : ExpectationProgress) (k : ℕ)
    (hk : s.iterations = k) (n : ℕ) (hn : s.printEvery = n) (h0 : 1 ≤ n) (hm : (k : ℤ) + docs es ≤ intMax) :
    ∃ s', feed ExpectationProgress.onEvent s es = some s' ∧ s'.iterations = k + docs es ∧ s'.printEvery = n ∧
      s'.printed.reverse = s.printed.reverse ++
        ((List.range' (k + 1) (docs es)).filter fun i => n ∣ i).map fun i => (i : ℤ) := by
  induction es generalizing s k with
  | nil => exact ⟨s, rfl, by simp [docs, hk], hn, by simp [docs]⟩
  | cons e es ih =>
    cases e with
    | epoch p => simp [IsDocs, epochs] at hes
    | expectation l =>
      have hd : docs (Event.expectation l :: es) = docs es + 1 := by simp [docs]
      rw [hd] at hm
      push_cast at hm
      obtain ⟨s', h1, h2, h3, h4⟩ := ih hes
        { s with
          iterations := s.iterations + 1
          printed := if s.printEvery ∣ s.iterations + 1 then (s.iterations + 1) :: s.printed else s.printed }
        (k + 1) (by simp [hk]) hn (by push_cast; omega)
      refine ⟨s', ?_, ?_, h3, ?_⟩
      · rw [← h1, feed, List.foldlM_cons]
        have h5 : s.printEvery ≠ 0 := by omega
        simp only [ExpectationProgress.onEvent, incr, if_pos (show s.iterations < intMax by omega),
          Option.bind_some, remainder, if_neg h5, Option.map_some, ← Int.dvd_iff_tmod_eq_zero]
        rfl
      · rw [h2, hd]; push_cast; ring
      · rw [h4, hd, List.range'_succ]
        have e1 : s.iterations + 1 = ((k + 1 : ℕ) : ℤ) := by rw [hk]; push_cast; rfl
        simp only [e1, hn, Int.natCast_dvd_natCast]
        by_cases hd : n ∣ k + 1
        · rw [if_pos hd, List.filter_cons_of_pos (by simpa using hd)]
          simp
        · rw [if_neg hd, List.filter_cons_of_neg (by simpa using hd)]
    | maximization l => exact ih hes s k hk hn hm
    | other => exact ih hes s k hk hn hm

/-- **C83.**  During a training, or several, the listener prints for each epoch the multiples of `n` up to the
number of documents of that epoch, whatever happened in the epochs before. -/
theorem C83_progress (n : ℕ) (hn : 1 ≤ n) (history : List (List (Event P) × P))
    (hd : ∀ q ∈ history, IsDocs q.1) (hm : ∀ q ∈ history, (docs q.1 : ℤ) ≤ intMax) :
    ∃ s, feed ExpectationProgress.onEvent (ExpectationProgress.new n)
        (history.flatMap fun q => q.1 ++ [.epoch q.2]) = some s ∧
      s.printed.reverse = history.flatMap fun q => multiples n (docs q.1) := by
  have key : ∀ s : ExpectationProgress, s.iterations = 0 → s.printEvery = n →
      ∃ s', feed ExpectationProgress.onEvent s (history.flatMap fun q => q.1 ++ [.epoch q.2]) = some s' ∧
        s'.printed.reverse = s.printed.reverse ++ history.flatMap fun q => multiples n (docs q.1) := by
    induction history with
    | nil => exact fun s _ _ => ⟨s, rfl, by simp⟩
    | cons q history ih =>
      intro s h0 h1
      obtain ⟨t, a1, a2, a3, a4⟩ := expectation_feed q.1 (hd q (by simp)) s 0 (by simpa using h0) n h1 hn
        (by simpa using hm q (by simp))
      obtain ⟨s', b1, b2⟩ := ih (fun q hq => hd q (by simp [hq])) (fun q hq => hm q (by simp [hq]))
        { t with iterations := 0 } rfl a3
      refine ⟨s', ?_, ?_⟩
      · rw [← b1, List.flatMap_cons, feed, List.foldlM_append, List.foldlM_append, ← feed, a1]
        rfl
      · rw [b2, List.flatMap_cons]
        change t.printed.reverse ++ _ = _
        rw [a4, List.append_assoc]
        rfl
  obtain ⟨s, h1, h2⟩ := key (ExpectationProgress.new n) rfl rfl
  exact ⟨s, h1, by simpa [ExpectationProgress.new] using h2⟩

/-- The hypotheses can hold: epochs of five and of three documents, printing every second document. -/
example : ∃ s, feed ExpectationProgress.onEvent (ExpectationProgress.new 2)
      ((List.replicate 5 (.expectation .nan) ++ [.epoch ()]) ++
        (List.replicate 3 (.expectation .nan) ++ [.epoch ()])) = some s ∧
    s.printed.reverse = [2, 4, 2] := ⟨_, rfl, by decide +kernel⟩

end Verif.Apps
