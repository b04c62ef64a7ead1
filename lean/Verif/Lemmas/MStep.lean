import Verif.Spec.MStep
import Mathlib.Algebra.BigOperators.Group.List.Basic
import Mathlib.Tactic.Ring
import Mathlib.Tactic.Linarith
import Mathlib.Tactic.FieldSimp
import Mathlib.Tactic.Positivity

/-! Auxiliary facts about the maximisation steps. -/
namespace Verif.MStep

open MathUtils EStep Optim Finset

variable {K V C : ℕ} {S A B : Type}

/-! ### Histories -/

theorem since_snoc (h : List (Call A B)) (c : Call A B) :
    since (h ++ [c]) = match c with
      | .doc a => since h ++ [a]
      | .step _ => [] := by
  simp only [since, List.foldl_append, List.foldl_cons, List.foldl_nil]
  cases c <;> rfl

@[simp] theorem since_nil : since ([] : List (Call A B)) = [] := rfl

@[simp] theorem since_doc (h : List (Call A B)) (a : A) : since (h ++ [.doc a]) = since h ++ [a] :=
  since_snoc h _

@[simp] theorem since_step (h : List (Call A B)) (b : B) : since (h ++ [.step b]) = [] := since_snoc h _

theorem history_snoc (doc : A → S → Option S) (step : B → S → Option S) (s : S)
    (h : List (Call A B)) (c : Call A B) :
    history doc step s (h ++ [c]) = (history doc step s h).bind fun s => match c with
      | .doc a => doc a s
      | .step b => step b s := by
  simp only [history, List.foldlM_append, List.foldlM_cons, List.foldlM_nil]
  cases h.foldlM (fun s c => match c with | Call.doc a => doc a s | Call.step b => step b s) s with
  | none => rfl
  | some s => cases c <;> simp

/-- What holds initially and is preserved by both calls holds after every history. -/
theorem history_induct {doc : A → S → Option S} {step : B → S → Option S} {s0 : S}
    (I : S → List A → Prop) (h0 : I s0 [])
    (hd : ∀ a s s' l, I s l → doc a s = some s' → I s' (l ++ [a]))
    (hs : ∀ b s s' l, I s l → step b s = some s' → I s' []) :
    ∀ (h : List (Call A B)) (s : S), history doc step s0 h = some s → I s (since h) := by
  intro h
  induction h using List.reverseRecOn with
  | nil =>
    intro s e
    simp only [history, List.foldlM_nil] at e
    cases e
    exact h0
  | append_singleton h c ih =>
    intro s e
    rw [history_snoc, Option.bind_eq_some_iff] at e
    obtain ⟨s1, e1, e2⟩ := e
    cases c with
    | doc a => rw [since_doc]; exact hd a s1 s _ (ih _ e1) e2
    | step b => rw [since_step]; exact hs b s1 s _ (ih _ e1) e2

/-- A list of documents without a batch step. -/
theorem since_docs (l : List A) : since (l.map (Call.doc (B := B))) = l := by
  induction l using List.reverseRecOn with
  | nil => rfl
  | append_singleton l a ih => rw [List.map_append, List.map_singleton, since_doc, ih]

/-! ### Expected counts -/

@[simp] theorem expectedCounts_nil (k : Fin K) (n : Fin V) : expectedCounts [] k n = 0 := rfl

theorem expectedCounts_snoc (ds : List (Given K V)) (d : Given K V) (k : Fin K) (n : Fin V) :
    expectedCounts (ds ++ [d]) k n = expectedCounts ds k n + scaled d.2.phi d.1.words k n := by
  simp [expectedCounts, scaled, mul_comm]

theorem expectedCounts_perm {ds es : List (Given K V)} (h : ds.Perm es) :
    expectedCounts ds = expectedCounts es := by
  funext k n
  exact (h.map _).sum_eq

theorem expectedCounts_nonneg {ds : List (Given K V)} (h : ∀ d ∈ ds, ∀ k n, 0 ≤ d.2.phi k n) (k : Fin K)
    (n : Fin V) : 0 ≤ expectedCounts ds k n := by
  apply List.sum_nonneg
  intro x hx
  obtain ⟨d, hd, rfl⟩ := List.mem_map.1 hx
  exact mul_nonneg (Nat.cast_nonneg _) (h d hd k n)

/-- `b_` holds the expected counts of the documents. -/
def BufIs (b : Buf K V) (ds : List (Given K V)) : Prop :=
  match b with
  | none => ds = []
  | some b => b = expectedCounts ds

theorem BufIs.doc {b : Buf K V} {ds : List (Given K V)} (h : BufIs b ds) (d : Given K V) :
    BufIs (uDoc d.1.words d.2.phi b) (ds ++ [d]) := by
  cases b with
  | none =>
    have h' : ds = [] := h
    subst h'
    simp only [uDoc, Buf.add, BufIs]
    funext k n
    simp [expectedCounts, scaled, mul_comm]
  | some b =>
    have h' : b = expectedCounts ds := h
    simp only [uDoc, Buf.add, BufIs]
    funext k n
    rw [expectedCounts_snoc, h']

theorem BufIs.clear {b : Buf K V} : BufIs b.clear [] := by
  cases b <;> simp [BufIs, Buf.clear]
  rfl

theorem BufIs.some {b : Buf K V} {ds : List (Given K V)} (h : BufIs b ds) (hne : ds ≠ []) :
    b = Option.some (expectedCounts ds) := by
  cases b with
  | none => exact absurd h hne
  | some b => exact congrArg _ h

/-- What `m_step` assigns to `beta` after at least one document. -/
noncomputable def betaOf (ds : List (Given K V)) : Beta K V :=
  .matrix fun k n => quot (expectedCounts ds k n) (topicMass ds k)

theorem BufIs.beta {b : Buf K V} {ds : List (Given K V)} (h : BufIs b ds) (hne : ds ≠ []) :
    uBeta b = betaOf ds := by
  rw [h.some hne]; rfl

/-! ### Vectors that grow -/

theorem resize_length {α : Type} (l : List (Option α)) (n : ℕ) : (resize l n).length = n := by
  simp [resize]; omega

theorem resize_take {α : Type} (l : List (Option α)) {n m : ℕ} (h : m ≤ n) (hl : m ≤ l.length) :
    (resize l n).take m = l.take m := by
  rw [resize, List.take_append_of_le_length (by simp; omega), List.take_take, Nat.min_eq_left h]

theorem resize_of_le {α : Type} (l : List (Option α)) {n : ℕ} (h : n ≤ l.length) :
    resize l n = l.take n := by
  simp [resize, Nat.sub_eq_zero_of_le h]

theorem readAll_map_some {α : Type} (l : List α) : readAll (l.map some) = some l := by
  induction l with
  | nil => rfl
  | cons a l ih => simp [readAll, ih]

theorem readAll_none {α : Type} {l : List (Option α)} (h : none ∈ l) : readAll l = none := by
  induction l with
  | nil => simp at h
  | cons a l ih =>
    cases a with
    | none => rfl
    | some a => simp [readAll, ih (by simpa using h)]

theorem readAll_eq_some {α : Type} {l : List (Option α)} {r : List α} (h : readAll l = some r) :
    l = r.map some := by
  induction l generalizing r with
  | nil => simp only [readAll, Option.some.injEq] at h; subst h; rfl
  | cons a l ih =>
    cases a with
    | none => simp [readAll] at h
    | some a =>
      simp only [readAll, Option.map_eq_some_iff] at h
      obtain ⟨t, ht, rfl⟩ := h
      rw [ih ht]; rfl

/-- One element is added to the first `n`, whatever lies behind them. -/
theorem grow_set {α : Type} {l : List (Option α)} {vs : List α} {n : ℕ} (v : α)
    (hl : n ≤ l.length) (ht : l.take n = vs.map some) :
    ∃ l', setAt (if l.length ≤ n then resize l (n + 1) else l) n v = some l' ∧
      l'.length = max l.length (n + 1) ∧ l'.take (n + 1) = (vs ++ [v]).map some := by
  have key : ∀ m : List (Option α), n < m.length → m.take n = vs.map some →
      (m.set n (some v)).take (n + 1) = (vs ++ [v]).map some := by
    intro m hm hmt
    rw [List.take_add_one, List.take_set_of_le (Nat.le_refl n), hmt]
    simp [hm]
  by_cases h : l.length ≤ n
  · have hlen : (resize l (n + 1)).length = n + 1 := resize_length _ _
    rw [if_pos h, setAt, if_pos (by omega)]
    refine ⟨_, rfl, by simp [hlen]; omega, key _ (by omega) ?_⟩
    rw [resize_take _ (by omega) hl, ht]
  · rw [if_neg h, setAt, if_pos (by omega)]
    exact ⟨_, rfl, by simp; omega, key _ (by omega) ht⟩

end Verif.MStep
