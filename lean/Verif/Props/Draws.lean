import Verif.Model.Draws
import Verif.Props.Pool

/-! Property C107: the draws that decide which documents report their likelihood. -/
namespace Verif.Pool

open Finset

variable {M P R : Type}

/-! ### The rules -/

theorem dstep_cases {k : ℕ} {c : Cfg M P R} {s s' : DSt M R c.W} {a : DAct} (h : dstep k c s a = some s') :
    (∃ (j : Fin c.W) (i : ℕ), a = .draw j ∧ s.base.ws j = .work i ∧ (s.got j).length < k ∧
      s' = { s with next := s.next + 1, got := setG s.got j (s.got j ++ [s.next]) }) ∨
    (∃ (j : Fin c.W) (i : ℕ) (b : St M R c.W), a = .act (.worker j) ∧ s.base.ws j = .work i ∧ (s.got j).length = k ∧
      step c s.base (.worker j) = some b ∧
      s' = { s with base := b, got := setG s.got j [], used := s.used ++ [(i, s.got j)] }) ∨
    (∃ (a' : Act) (b : St M R c.W), a = .act a' ∧ step c s.base a' = some b ∧
      (∀ (j : Fin c.W) i, a' = .worker j → s.base.ws j ≠ .work i) ∧ s' = { s with base := b }) := by
  cases a with
  | draw j =>
    left
    simp only [dstep] at h
    split at h
    · rename_i hj
      split at h
      · rename_i i hw
        split at h
        · rename_i hl
          exact ⟨⟨j, hj⟩, i, rfl, hw, hl, (Option.some_injective _ h).symm⟩
        · cases h
      · cases h
    · cases h
  | act a =>
    right
    cases a with
    | worker j =>
      simp only [dstep] at h
      split at h
      · rename_i hj
        split at h
        · rename_i i hw
          split at h
          · rename_i hl
            obtain ⟨b, hb, rfl⟩ := Option.map_eq_some_iff.1 h
            exact .inl ⟨⟨j, hj⟩, i, b, rfl, hw, hl, by simp [step, hj, hb], rfl⟩
          · cases h
        · rename_i hw
          obtain ⟨b, hb, rfl⟩ := Option.map_eq_some_iff.1 h
          refine .inr ⟨_, b, rfl, by simp [step, hj, hb], ?_, rfl⟩
          intro j' i e
          cases e
          exact hw i
      · cases h
    | main =>
      obtain ⟨b, hb, rfl⟩ := Option.map_eq_some_iff.1 h
      exact .inr ⟨_, b, rfl, hb, by simp, rfl⟩
    | spurious =>
      obtain ⟨b, hb, rfl⟩ := Option.map_eq_some_iff.1 h
      exact .inr ⟨_, b, rfl, hb, by simp, rfl⟩

/-- The actions other than draws. -/
def erase : List DAct → List Act
  | [] => []
  | .act a :: as => a :: erase as
  | .draw _ :: as => erase as

theorem run_erase {k : ℕ} {c : Cfg M P R} : ∀ {as : List DAct} {s s' : DSt M R c.W}, drun k c s as = some s' →
    run c s.base (erase as) = some s'.base
  | [], s, s', h => by
    cases h
    rfl
  | a :: as, s, s', h => by
    simp only [drun] at h
    split at h
    · cases h
    · rename_i t ht
      have ih := run_erase h
      rcases dstep_cases ht with ⟨j, i, rfl, _, _, rfl⟩ | ⟨j, i, b, rfl, _, _, hb, rfl⟩ | ⟨a', b, rfl, hb, _, rfl⟩
      · exact ih
      · simp only [erase, run, hb]
        exact ih
      · simp only [erase, run, hb]
        exact ih

theorem drun_append {k : ℕ} {c : Cfg M P R} : ∀ {as bs : List DAct} {s t : DSt M R c.W}, drun k c s as = some t →
    drun k c s (as ++ bs) = drun k c t bs
  | [], _, _, _, h => by
    cases h
    rfl
  | a :: as, bs, s, t, h => by
    simp only [drun, List.cons_append] at h ⊢
    split at h
    · cases h
    · exact drun_append h

theorem drun_draws {k : ℕ} {c : Cfg M P R} {s : DSt M R c.W} (j : Fin c.W) {i : ℕ} (hw : s.base.ws j = .work i) :
    ∀ r, (s.got j).length + r ≤ k → drun k c s (List.replicate r (.draw j)) =
      some { s with next := s.next + r, got := setG s.got j (s.got j ++ List.range' s.next r) }
  | 0, _ => by
    have : setG s.got j (s.got j) = s.got := by
      funext x
      unfold setG
      split
      · rename_i h
        rw [h]
      · rfl
    simp [drun, this]
  | r + 1, h => by
    have hlt : (s.got j).length < k := by omega
    have h1 : dstep k c s (.draw j) =
        some { s with next := s.next + 1, got := setG s.got j (s.got j ++ [s.next]) } := by
      simp [dstep, hw, hlt]
    rw [List.replicate_succ]
    simp only [drun, h1]
    have hg : (setG s.got j (s.got j ++ [s.next]) j).length + r ≤ k := by
      rw [show setG s.got j (s.got j ++ [s.next]) j = s.got j ++ [s.next] by simp [setG], List.length_append,
        List.length_singleton]
      omega
    have := drun_draws (s := { s with next := s.next + 1, got := setG s.got j (s.got j ++ [s.next]) }) j hw r hg
    rw [this]
    congr 1
    have e : setG (setG s.got j (s.got j ++ [s.next])) j
        (setG s.got j (s.got j ++ [s.next]) j ++ List.range' (s.next + 1) r) =
        setG s.got j (s.got j ++ List.range' s.next (r + 1)) := by
      funext x
      unfold setG
      split
      · simp [List.range'_succ]
      · rfl
    simp only [e]
    congr 1
    omega

/-! ### Invariants -/

structure DInv (k : ℕ) (c : Cfg M P R) (s : DSt M R c.W) : Prop where
  tok : ∀ i, s.base.qin.count i + (∑ w, wpre i (s.base.ws w)) + (s.used.map Prod.fst).count i =
    if i < c.n then 1 else 0
  num : ∀ x, (s.used.flatMap Prod.snd).count x + (∑ w, (s.got w).count x) = if x < s.next then 1 else 0
  len : ∀ d ∈ s.used, d.2.length = k
  idle : ∀ w, s.got w ≠ [] → ∃ i, s.base.ws w = .work i

theorem sum_setG {W : ℕ} (f : List ℕ → ℕ) (g : Fin W → List ℕ) (j : Fin W) (v : List ℕ) :
    (∑ w, f (setG g j v w)) + f (g j) = (∑ w, f (g w)) + f v := by
  classical
  have h1 : ∀ w, f (setG g j v w) = Function.update (fun w => f (g w)) j (f v) w := by
    intro w
    unfold setG Function.update
    by_cases h : w = j <;> simp [h]
  simp only [h1]
  rw [Finset.sum_update_of_mem (mem_univ j), ← Finset.sum_sdiff (subset_univ {j}) (f := fun w => f (g w))]
  simp only [Finset.sum_singleton]
  omega

theorem wpre_eq {i : ℕ} {u v : WPc R} (h : ∀ i, u = .work i ↔ v = .work i) : wpre i u = wpre i v := by
  cases u <;> cases v <;> simp_all

/-- What a step does to the documents that wait and that are worked on, if it is not the end of an E step. -/
theorem quiet_step {c : Cfg M P R} {m : M} {s s' : St M R c.W} {a : Act} (hr : Reachable c m s)
    (hs : step c s a = some s') (ha : ∀ (j : Fin c.W) i, a = .worker j → s.ws j ≠ .work i) :
    (∃ j i, s.ws j = .fetch ∧ s.qin = i :: s'.qin ∧ s'.ws = setW s.ws j (.work i)) ∨
    (s'.qin = s.qin ∧ ∀ w i, s'.ws w = .work i ↔ s.ws w = .work i) := by
  have set : ∀ (j : Fin c.W) (v : WPc R), (∀ i, s.ws j ≠ .work i) → (∀ i, v ≠ .work i) →
      ∀ w i, setW s.ws j v w = .work i ↔ s.ws w = .work i := by
    intro j v h1 h2 w i
    unfold setW
    split
    · rename_i e
      subst e
      exact ⟨fun h => absurd h (h2 i), fun h => absurd h (h1 i)⟩
    · rfl
  have ht := trans_of_step hs
  clear hs
  cases ht with
  | fetchDone j h hq => exact .inr ⟨rfl, set j _ (by simp [h]) (by simp)⟩
  | fetchJob j i q h hq => exact .inl ⟨j, i, h, hq, rfl⟩
  | work j i h => exact absurd h (ha j i rfl)
  | push j i r h => exact .inr ⟨rfl, set j _ (by simp [h]) (by simp)⟩
  | notify j h => exact .inr ⟨rfl, set j _ (by simp [h]) (by simp)⟩
  | spawn j hj h =>
    have h3 := inv_born s hr
    simp only [h, BornP] at h3
    have h4 := (h3.2 ⟨j, hj⟩).1 (Nat.le_refl _)
    exact .inr ⟨rfl, set _ _ (by simp [h4]) (by simp)⟩
  | _ => exact .inr ⟨by simp, fun w i => by simp⟩

theorem dinv {k : ℕ} {c : Cfg M P R} {m : M} : ∀ {as : List DAct} {s s' : DSt M R c.W}, Reachable c m s.base →
    DInv k c s → drun k c s as = some s' → DInv k c s' ∧ Reachable c m s'.base
  | [], s, s', hr, hI, h => by
    cases h
    exact ⟨hI, hr⟩
  | a :: as, s, s', hr, hI, h => by
    simp only [drun] at h
    split at h
    · cases h
    rename_i t ht
    suffices hs : DInv k c t ∧ Reachable c m t.base from dinv hs.2 hs.1 h
    rcases dstep_cases ht with ⟨j, i, rfl, hw, hl, rfl⟩ | ⟨j, i, b, rfl, hw, hl, hb, rfl⟩ | ⟨a', b, rfl, hb, hna, rfl⟩
    · refine ⟨⟨hI.tok, fun x => ?_, hI.len, fun w hg => ?_⟩, hr⟩
      · have h1 := hI.num x
        have h2 := sum_setG (List.count x) s.got j (s.got j ++ [s.next])
        simp only [List.count_append, List.count_singleton] at h2
        by_cases hx : x = s.next
        · subst hx
          simp only [beq_self_eq_true, if_true, lt_irrefl, if_false, Nat.lt_succ_self] at h1 h2 ⊢
          omega
        · have hx' : ¬ s.next = x := fun h => hx h.symm
          have e : (x < s.next + 1) ↔ x < s.next := by omega
          simp only [beq_iff_eq, hx', if_false, e] at h2 ⊢
          omega
      · by_cases hwj : w = j
        · exact ⟨i, by rw [hwj]; exact hw⟩
        · exact hI.idle w (by simpa [setG, hwj] using hg)
    · have hb' : b = { s.base with ws := setW s.base.ws j (.push i (c.eval (c.params s.base.model) i)),
                                   evq := s.base.evq ++ [.exp i] } := by
        simpa [step, workerStep, hw] using hb.symm
      refine ⟨⟨fun x => ?_, fun x => ?_, fun d hd => ?_, fun w hg => ?_⟩, hr.step hb⟩
      · have h1 := hI.tok x
        have h2 := sum_setW (wpre x) s.base.ws j (.push i (c.eval (c.params s.base.model) i))
        subst hb'
        simp [hw, List.count_append, List.count_singleton] at h2 ⊢
        omega
      · have h1 := hI.num x
        have h2 := sum_setG (List.count x) s.got j []
        simp [List.flatMap_append] at h2 ⊢
        omega
      · rcases List.mem_append.1 hd with h | h
        · exact hI.len d h
        · rw [List.mem_singleton.1 h]
          exact hl
      · by_cases hwj : w = j
        · simp [setG, hwj] at hg
        · obtain ⟨i', hi'⟩ := hI.idle w (by simpa [setG, hwj] using hg)
          exact ⟨i', by rw [hb']; simpa [setW, hwj] using hi'⟩
    · refine ⟨⟨fun x => ?_, hI.num, hI.len, fun w hg => ?_⟩, hr.step hb⟩
      · have h1 := hI.tok x
        rcases quiet_step hr hb hna with ⟨j, i, hf, hq, hws⟩ | ⟨hq, hws⟩
        · have h2 := sum_setW (wpre x) s.base.ws j (.work i)
          simp only [hws, hf, wpre_fetch, wpre_work] at h2 ⊢
          rw [hq, List.count_cons] at h1
          simp only [beq_iff_eq] at h1
          omega
        · have e : ∑ w, wpre x (b.ws w) = ∑ w, wpre x (s.base.ws w) :=
            Finset.sum_congr rfl fun w _ => wpre_eq (hws w)
          simp only [hq, e]
          exact h1
      · obtain ⟨i, hi⟩ := hI.idle w hg
        rcases quiet_step hr hb hna with ⟨j, i', hf, hq, hws⟩ | ⟨hq, hws⟩
        · have : w ≠ j := by
            rintro rfl
            rw [hf] at hi
            cases hi
          exact ⟨i, by simpa [hws, setW, this] using hi⟩
        · exact ⟨i, (hws w i).2 hi⟩

theorem dinv_init (k : ℕ) (c : Cfg M P R) (m : M) : DInv k c (dinit c m) := by
  refine ⟨fun i => ?_, fun x => ?_, by simp [dinit], by simp [dinit]⟩
  · simp [dinit, init, start, Left.empty, wpre]
  · simp [dinit]

/-! ### C107 -/

/-- **C107**, every schedule: when a call returns, every document has drawn `k` numbers, and no number has been used
twice or left out; the generator has produced `k` numbers per document.  The rest of the call is one without draws. -/
theorem C107_conserved {k : ℕ} {c : Cfg M P R} {m : M} {as : List DAct} {s : DSt M R c.W}
    (h : drun k c (dinit c m) as = some s) (hr : Returned s.base) :
    (s.used.map Prod.fst).Perm (List.range c.n) ∧ (∀ d ∈ s.used, d.2.length = k) ∧
    (s.used.flatMap Prod.snd).Perm (List.range (k * c.n)) ∧ s.next = k * c.n ∧ Reachable c m s.base := by
  obtain ⟨hI, hR⟩ := dinv (Reachable.init c m) (dinv_init k c m) h
  obtain ⟨hq, _, hd, _⟩ := C06_nothing_left hR hr
  have h1 : (s.used.map Prod.fst).Perm (List.range c.n) := by
    rw [List.perm_iff_count]
    intro i
    have := hI.tok i
    simp only [hq, hd, wpre_done] at this
    rw [count_range]
    simpa using this
  have h2 : ∀ x, (s.used.flatMap Prod.snd).count x = if x < s.next then 1 else 0 := by
    intro x
    have := hI.num x
    have e : ∀ w, s.got w = [] := by
      intro w
      by_contra hne
      obtain ⟨i, hi⟩ := hI.idle w hne
      rw [hd w] at hi
      cases hi
    simpa [e] using this
  have h3 : (s.used.flatMap Prod.snd).Perm (List.range s.next) := by
    rw [List.perm_iff_count]
    intro x
    rw [h2, count_range]
  have h4 : s.next = k * c.n := by
    have e1 := h3.length_eq
    have e2 := h1.length_eq
    rw [List.length_range] at e1 e2
    rw [List.length_map] at e2
    rw [← e1, ← e2]
    have : ∀ l : List (ℕ × List ℕ), (∀ d ∈ l, d.2.length = k) → (l.flatMap Prod.snd).length = k * l.length := by
      intro l
      induction l with
      | nil => simp
      | cons d l ih =>
        intro h
        rw [List.flatMap_cons, List.length_append, ih fun d hd => h d (by simp [hd]), h d (by simp), List.length_cons]
        ring
    exact this _ hI.len
  exact ⟨h1, hI.len, h4 ▸ h3, h4, hR⟩

/-- **C107**, extremes: if likelihoods are asked for never or always, no document or every document reports, whatever the
schedule and the numbers. -/
theorem C107_extremes {k : ℕ} {c : Cfg M P R} {m : M} {as : List DAct} {s : DSt M R c.W}
    (h : drun k c (dinit c m) as = some s) (hr : Returned s.base) {canon : List ℕ → ℝ} (x : ℕ → ℕ)
    (h0 : ∀ l, 0 ≤ canon l) (h1 : ∀ l, canon l < 1) :
    reporters canon x 0 s.used = [] ∧ (reporters canon x 1 s.used).Perm (List.range c.n) := by
  constructor
  · simp only [reporters, List.map_eq_nil_iff, List.filter_eq_nil_iff]
    intro d _
    simp [EStep.bernoulli, h0]
  · have : s.used.filter (fun d => EStep.bernoulli 1 (canon (d.2.map x))) = s.used := by
      rw [List.filter_eq_self]
      intro d _
      simp [EStep.bernoulli, h1]
    rw [reporters, this]
    exact (C107_conserved h hr).1

/-- The draws of a sequential program: document `i` uses the numbers `k i, …, k i + k - 1`. -/
def sequentialDraws (k n : ℕ) : List (ℕ × List ℕ) := (List.range n).map fun i => (i, List.range' (k * i) k)

theorem sequentialDraws_succ (k n : ℕ) :
    sequentialDraws k (n + 1) = sequentialDraws k n ++ [(n, List.range' (k * n) k)] := by
  simp [sequentialDraws, List.range_succ]

/-- What one worker has drawn: `f` documents are finished. -/
def OneDraws (k : ℕ) (c : Cfg M P R) (w0 : Fin c.W) (s : DSt M R c.W) : Prop :=
  ∃ f, s.used = sequentialDraws k f ∧
    ((s.base.ws w0 = .work f ∧ s.base.qin = (List.range c.n).drop (f + 1) ∧
      ∃ l, s.next = k * f + l ∧ s.got w0 = List.range' (k * f) l) ∨
     ((∀ i, s.base.ws w0 ≠ .work i) ∧ s.base.qin = (List.range c.n).drop f ∧ s.next = k * f ∧ s.got w0 = []))

theorem one_draws {k : ℕ} {c : Cfg M P R} {m : M} (w0 : Fin c.W) (hw0 : ∀ w, w = w0) :
    ∀ {as : List DAct} {s s' : DSt M R c.W}, Reachable c m s.base → OneDraws k c w0 s → drun k c s as = some s' →
      OneDraws k c w0 s'
  | [], s, s', hr, hI, h => by
    cases h
    exact hI
  | a :: as, s, s', hr, hI, h => by
    simp only [drun] at h
    split at h
    · cases h
    rename_i t ht
    suffices hs : OneDraws k c w0 t ∧ Reachable c m t.base from one_draws w0 hw0 hs.2 hs.1 h
    obtain ⟨f, hu, hI⟩ := hI
    rcases dstep_cases ht with ⟨j, i, rfl, hw, hl, rfl⟩ | ⟨j, i, b, rfl, hw, hl, hb, rfl⟩ | ⟨a', b, rfl, hb, hna, rfl⟩
    · obtain rfl := hw0 j
      refine ⟨⟨f, hu, ?_⟩, hr⟩
      rcases hI with ⟨h1, h2, l, h3, h4⟩ | ⟨h1, _⟩
      · refine .inl ⟨h1, h2, l + 1, by simp only [h3]; ring, ?_⟩
        simp only [setG, if_true, h4, h3]
        rw [List.range'_1_concat]
      · exact absurd hw (h1 i)
    · obtain rfl := hw0 j
      refine ⟨?_, hr.step hb⟩
      have hb' : b = { s.base with ws := setW s.base.ws j (.push i (c.eval (c.params s.base.model) i)),
                                   evq := s.base.evq ++ [.exp i] } := by
        simpa [step, workerStep, hw] using hb.symm
      rcases hI with ⟨h1, h2, l, h3, h4⟩ | ⟨h1, _⟩
      · have hi : i = f := by
          rw [hw] at h1
          exact WPc.work.inj h1
        subst hi
        have hlk : l = k := by simpa [h4] using hl
        subst hlk
        refine ⟨i + 1, by simp only [hu, h4, sequentialDraws_succ], .inr ⟨?_, ?_, ?_, ?_⟩⟩
        · simp [hb']
        · simp [hb', h2]
        · simp only [h3]
          ring
        · simp [setG]
      · exact absurd hw (h1 i)
    · refine ⟨⟨f, hu, ?_⟩, hr.step hb⟩
      rcases quiet_step hr hb hna with ⟨j, i, hf, hq, hws⟩ | ⟨hq, hws⟩
      · obtain rfl := hw0 j
        rcases hI with ⟨h1, _⟩ | ⟨h1, h2, h3, h4⟩
        · rw [hf] at h1
          cases h1
        · left
          rw [h2] at hq
          have hfn : f < c.n := by
            by_contra hge
            rw [List.drop_eq_nil_of_le (by simpa using hge)] at hq
            cases hq
          rw [List.drop_eq_getElem_cons (by simpa using hfn)] at hq
          simp only [List.getElem_range, List.cons.injEq] at hq
          refine ⟨by simp [hws, hq.1], hq.2.symm, 0, by simpa using h3, by simpa using h4⟩
      · rcases hI with ⟨h1, h2, h3⟩ | ⟨h1, h2, h3⟩
        · exact .inl ⟨(hws _ _).2 h1, by simpa [hq] using h2, h3⟩
        · exact .inr ⟨fun i hi => h1 i ((hws _ _).1 hi), by simpa [hq] using h2, h3⟩

/-- **C107** (partial: one worker).  The draws, and with them the documents that report, are those of the sequential
program, whatever the schedule.  Missing: several workers (`C107_depends`, `C107_number_depends`). -/
theorem C107_one_worker_partial {k : ℕ} {c : Cfg M P R} (hW : c.W = 1) {m : M} {as : List DAct} {s : DSt M R c.W}
    (h : drun k c (dinit c m) as = some s) (hr : Returned s.base) :
    s.used = (List.range c.n).map fun i => (i, List.range' (k * i) k) := by
  have hw : ∀ w : Fin c.W, w = ⟨0, by omega⟩ := fun w => Fin.ext (by omega)
  obtain ⟨f, hu, _⟩ := one_draws (k := k) (m := m) ⟨0, by omega⟩ hw (s := dinit c m) (Reachable.init c m)
    ⟨0, rfl, .inr ⟨by simp [dinit, init, start], by simp [dinit, init, start, Left.empty], rfl, rfl⟩⟩ h
  have h1 := (C107_conserved h hr).1.length_eq
  rw [hu] at h1 ⊢
  have : f = c.n := by simpa [sequentialDraws] using h1
  rw [this]
  rfl

/-! ### Two workers -/

/-- Two workers and two documents; both workers have taken a document. -/
def bothWork : List DAct := [.act .main, .act .main, .act .main, .act (.worker 0), .act (.worker 1)]

/-- Workers `a` and `b` hand over their results and the call returns. -/
def bothEnd (a b : ℕ) : List DAct :=
  [.act (.worker a), .act (.worker a), .act (.worker a), .act (.worker b), .act (.worker b), .act (.worker b),
   .act .main, .act .main, .act .main, .act .main, .act .main, .act .main,
   .act .main, .act .main, .act .main, .act .main, .act .main, .act .main]

/-- The state after `bothWork`. -/
def working : DSt DemoM ℕ 2 where
  base := { qin := [], qout := [], main := .loop 0, evq := [], model := (1, []), log := []
            ws := setW (setW (setW (setW (fun _ => .unborn) 0 .fetch) 1 .fetch) 0 (.work 0)) 1 (.work 1) }
  next := 0
  got := fun _ => []
  used := []

theorem bothWork_run (k : ℕ) :
    drun k (demo .partialFit true 2 2) (dinit (demo .partialFit true 2 2) (1, [])) bothWork = some working := rfl

theorem finish_doc {k : ℕ} {c : Cfg M P R} {s : DSt M R c.W} (j : Fin c.W) {i : ℕ} (hw : s.base.ws j = .work i)
    (hg : s.got j = []) {b : St M R c.W} (hb : step c s.base (.worker j) = some b) :
    drun k c s (List.replicate k (.draw j) ++ [.act (.worker j)]) =
      some { base := b, next := s.next + k, got := setG (setG s.got j (List.range' s.next k)) j [],
             used := s.used ++ [(i, List.range' s.next k)] } := by
  rw [drun_append (drun_draws j hw k (by simp [hg]))]
  have hb' : workerStep c s.base j = some b := by simpa [step] using hb
  simp [drun, dstep, hw, hg, setG, hb']

theorem one_after_other (k : ℕ) (a b : Fin 2) (hab : a ≠ b) : ∃ as s,
    drun k (demo .partialFit true 2 2) (dinit (demo .partialFit true 2 2) (1, [])) as = some s ∧
    Returned s.base ∧ s.used = [((a : ℕ), List.range' 0 k), ((b : ℕ), List.range' k k)] := by
  have key : ∀ a b : Fin 2, a ≠ b → ∃ (b1 b2 : St DemoM ℕ 2) (s : DSt DemoM ℕ 2),
      step (demo .partialFit true 2 2) working.base (.worker a) = some b1 ∧
      working.base.ws a = .work a ∧ b1.ws b = .work b ∧
      step (demo .partialFit true 2 2) b1 (.worker b) = some b2 ∧
      ∀ (n : ℕ) (g : Fin 2 → List ℕ) (u : List (ℕ × List ℕ)), ∃ s : DSt DemoM ℕ 2,
        drun k (demo .partialFit true 2 2) ⟨b2, n, g, u⟩ (bothEnd a b) = some s ∧ s.base.main = .ret ∧ s.used = u := by
    intro a b hab
    fin_cases a <;> fin_cases b
    · exact absurd rfl hab
    · exact ⟨_, _, working, rfl, rfl, rfl, rfl, fun n g u => ⟨_, rfl, rfl, rfl⟩⟩
    · exact ⟨_, _, working, rfl, rfl, rfl, rfl, fun n g u => ⟨_, rfl, rfl, rfl⟩⟩
    · exact absurd rfl hab
  obtain ⟨b1, b2, _, h1, h2, h3, h4, h5⟩ := key a b hab
  have f1 := finish_doc (k := k) (c := demo .partialFit true 2 2) (s := working) a h2 rfl h1
  have f2 := finish_doc (k := k) (c := demo .partialFit true 2 2)
    (s := { base := b1, next := working.next + k, got := setG (setG working.got a (List.range' working.next k)) a [],
            used := working.used ++ [((a : ℕ), List.range' working.next k)] }) b h3 (by
      show setG (setG working.got a (List.range' working.next k)) a [] b = []
      unfold setG
      split
      · rfl
      · rfl) h4
  obtain ⟨s, f3, hr, hu⟩ := h5 _ _ _
  refine ⟨bothWork ++ ((List.replicate k (.draw a) ++ [.act (.worker a)]) ++
    ((List.replicate k (.draw b) ++ [.act (.worker b)]) ++ bothEnd a b)), s, ?_, hr, ?_⟩
  · rw [drun_append (bothWork_run k), drun_append f1, drun_append f2]
    exact f3
  · rw [hu]
    simp [working]

/-- **C107** is false with two workers: whenever the first block of numbers says yes and the second no, one schedule
makes the first document report and another the second. -/
theorem C107_depends (k : ℕ) {canon : List ℕ → ℝ} {x : ℕ → ℕ} {p : ℝ} (h0 : canon ((List.range' 0 k).map x) < p)
    (h1 : p ≤ canon ((List.range' k k).map x)) : ∀ a : Fin 2, ∃ as s,
    drun k (demo .partialFit true 2 2) (dinit (demo .partialFit true 2 2) (1, [])) as = some s ∧
    Returned s.base ∧ reporters canon x p s.used = [(a : ℕ)] := by
  intro a
  obtain ⟨as, s, h, hr, hu⟩ := one_after_other k a (1 - a) (by fin_cases a <;> decide)
  refine ⟨as, s, h, hr, ?_⟩
  rw [hu, reporters]
  simp [EStep.bernoulli, h0, h1]

/-- The numbers of `std::minstd_rand0`, the `std::default_random_engine` of libstdc++, after the seed 0 of the default
`random_state` (which it replaces by 1). -/
def minstd (n : ℕ) : ℕ := 16807 ^ (n + 1) % 2147483647

/-- `std::generate_canonical` on that generator, with exact division. -/
noncomputable def minstdCanon : List ℕ → ℝ
  | [] => 0
  | a :: l => ((a : ℝ) - 1 + 2147483646 * minstdCanon' l) / 2147483646 ^ (l.length + 1)
where
  minstdCanon' : List ℕ → ℝ
    | [] => 0
    | a :: l => (a : ℝ) - 1 + 2147483646 * minstdCanon' l

/-- **C107** is false with two workers, and not even the number of documents that report is determined: with the
generator of libstdc++, the default seed and a probability of 0.3, one schedule makes one of two documents report and
another none, because the two numbers that a document needs are not drawn together. -/
theorem C107_number_depends :
    (∃ as s, drun 2 (demo .partialFit true 2 2) (dinit (demo .partialFit true 2 2) (1, [])) as = some s ∧
      Returned s.base ∧ reporters minstdCanon minstd (3 / 10) s.used = [0]) ∧
    (∃ as s, drun 2 (demo .partialFit true 2 2) (dinit (demo .partialFit true 2 2) (1, [])) as = some s ∧
      Returned s.base ∧ reporters minstdCanon minstd (3 / 10) s.used = []) := by
  constructor
  · refine C107_depends 2 ?_ ?_ 0
    · norm_num [minstdCanon, minstdCanon.minstdCanon', minstd, List.range'_succ]
    · norm_num [minstdCanon, minstdCanon.minstdCanon', minstd, List.range'_succ]
  · obtain ⟨s, h, hr, hu⟩ : ∃ s : DSt DemoM ℕ 2, drun 2 (demo .partialFit true 2 2)
        (dinit (demo .partialFit true 2 2) (1, []))
        (bothWork ++ [.draw 0, .draw 1, .draw 0, .draw 1, .act (.worker 0), .act (.worker 1)] ++ bothEnd 0 1) = some s ∧
        s.base.main = .ret ∧ s.used = [(0, [0, 2]), (1, [1, 3])] := ⟨_, rfl, rfl, rfl⟩
    refine ⟨_, s, h, hr, ?_⟩
    rw [hu]
    norm_num [reporters, minstdCanon, minstdCanon.minstdCanon', minstd, EStep.bernoulli]

/-! ### Instances -/

example : ∃ as s, drun 2 (demo .partialFit true 2 2) (dinit (demo .partialFit true 2 2) (1, [])) as = some s ∧
    Returned s.base :=
  let ⟨as, s, h, hr, _⟩ := one_after_other 2 0 1 (by decide)
  ⟨as, s, h, hr⟩

example : ∃ s, drun 2 (demo .partialFit true 1 1) (dinit (demo .partialFit true 1 1) (1, []))
    [.act .main, .act .main, .act (.worker 0), .draw 0, .draw 0, .act (.worker 0), .act (.worker 0), .act (.worker 0),
     .act (.worker 0), .act .main, .act .main, .act .main, .act .main, .act .main, .act .main, .act .main,
     .act .main] = some s ∧ Returned s.base := ⟨_, rfl, rfl⟩

example : (∀ l, 0 ≤ (fun _ : List ℕ => (1 / 2 : ℝ)) l) ∧ ∀ l, (fun _ : List ℕ => (1 / 2 : ℝ)) l < 1 := by norm_num

end Verif.Pool
