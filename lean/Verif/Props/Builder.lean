import Verif.Model.Builder
import Verif.Props.MathUtils

/-! Properties C62, C63 and C82: what a builder builds. -/
namespace Verif.Build

open MathUtils EStep MStep Finset

/-! ### Specification: what a history of calls asks for -/

/-- The last value that `f` gives in a history. -/
def last {A : Type} (f : Call → Option A) (h : List Call) : Option A := h.reverse.findSome? f

/-- The number of iterations a call asks for. -/
def iterationsOf : Call → Option ℕ
  | .setIterations n => some n
  | _ => none

/-- The number of workers a call asks for. -/
def workersOf : Call → Option ℕ
  | .setWorkers n => some n
  | _ => none

/-- The topics a call asks for. -/
noncomputable def topicsOf : Call → Option (DVec × DMat)
  | .topicsSeeded docs k n pick => seeded docs k n pick
  | .topicsRandom w k draw => some (randomTopics w k draw)
  | .topicsFromModel p => some (p.alpha, p.beta)
  | _ => none

/-- The number of topics after a history: zero if they have not been initialised. -/
noncomputable def topics (h : List Call) : ℕ :=
  match last topicsOf h with
  | none => 0
  | some t => t.2.rows

/-- `eta` is set to `eta` by the call `c` after the history `h`. -/
inductive SetsEta (h : List Call) : Call → DMat → Prop
  | zeros (c : ℕ) (hk : topics h ≠ 0) : SetsEta h (.etaZeros c) ⟨topics h, c, fun _ _ => 0⟩
  | uniform (c : ℕ) (hk : topics h ≠ 0) : SetsEta h (.etaUniform c) ⟨topics h, c, fun _ _ => 1 / c⟩
  | model (p : Params) : SetsEta h (.etaFromModel p) p.eta

/-- No call of `post` sets `eta`, when the calls of `pre` came before. -/
def Quiet (pre post : List Call) : Prop :=
  ∀ p c q, post = p ++ c :: q → ∀ e, ¬ SetsEta (pre ++ p) c e

/-- The value of `eta` after a history: what the last call that set it has set, the empty matrix if there is
none. -/
def EtaIs (h : List Call) (eta : DMat) : Prop :=
  (∃ pre c post, h = pre ++ c :: post ∧ SetsEta pre c eta ∧ Quiet (pre ++ [c]) post) ∨
  (eta = .empty ∧ Quiet [] h)

/-- A choice of an expectation step: a named one or one of the user. -/
def eChoice : Call → Option (ESpec ⊕ EPtr)
  | .setEStep s => some (.inl s)
  | .setE p => some (.inr p)
  | _ => none

/-- A choice of a maximisation step. -/
def mChoice : Call → Option (MSpec ⊕ MPtr)
  | .setMStep s => some (.inl s)
  | .setM p => some (.inr p)
  | _ => none

/-- The default expectation step or a given one. -/
inductive OrDefault (k : EKind) : Option EPtr → EPtr → Prop
  | given (p : EPtr) : OrDefault k (some p) p
  | default (i : ℕ) : OrDefault k none (.leaf i k)

/-- The step `p` is what was asked for: a step of the class and with the arguments asked for, or the step of
the user, or the default step. -/
inductive EIs : Option (ESpec ⊕ EPtr) → EPtr → Prop
  | none (i : ℕ) : EIs none (.leaf i (.classic 10 (1 / 100) 1 0))
  | given (p : EPtr) : EIs (some (.inr p)) p
  | classic (x n : ℕ) (t l : ℝ) (s : ℤ) : EIs (some (.inl (.classic n t l s))) (.leaf x (.classic n t l s))
  | supervised (x n : ℕ) (t : ℝ) (f : ℕ) (l : ℝ) (s : ℤ) :
      EIs (some (.inl (.supervised n t f l s))) (.leaf x (.supervised n t f l s))
  | fast (x n : ℕ) (t C l : ℝ) (s : ℤ) :
      EIs (some (.inl (.fast n t C l s))) (.leaf x (.fast n t C .constant l s))
  | semi (x : ℕ) {a b : Option EPtr} {p q : EPtr} (hp : OrDefault (.fast 10 (1 / 100) 1 .constant 1 0) a p)
      (hq : OrDefault (.classic 10 (1 / 100) 1 0) b q) : EIs (some (.inl (.semi a b))) (.semi x p q)
  | multinomial (x n : ℕ) (t m w l : ℝ) (s : ℤ) :
      EIs (some (.inl (.multinomial n t m w l s))) (.leaf x (.multinomial n t m w l s))
  | correspondence (x n : ℕ) (t m l : ℝ) (s : ℤ) :
      EIs (some (.inl (.correspondence n t m l s))) (.leaf x (.correspondence n t m l s))

/-- The same for the maximisation step; a number of classes asks for equal weights. -/
inductive MIs : Option (MSpec ⊕ MPtr) → MPtr → Prop
  | none (i : ℕ) : MIs none ⟨i, .classic⟩
  | given (p : MPtr) : MIs (some (.inr p)) p
  | classic (i : ℕ) : MIs (some (.inl .classic)) ⟨i, .classic⟩
  | fast (i n : ℕ) (t l : ℝ) : MIs (some (.inl (.fast n t l))) ⟨i, .fast n t l⟩
  | supervised (i n : ℕ) (t l : ℝ) : MIs (some (.inl (.supervised n t l))) ⟨i, .supervised n t l⟩
  | classes (i c : ℕ) (l : ℝ) (n : ℕ) (m r w : ℝ) {cw : List ℝ} (hl : cw.length = c) (h1 : ∀ x ∈ cw, x = 1) :
      MIs (some (.inl (.onlineClasses c l n m r w))) ⟨i, .online cw l n m r w⟩
  | weights (i : ℕ) (cw : List ℝ) (l : ℝ) (n : ℕ) (m r w : ℝ) :
      MIs (some (.inl (.onlineWeights cw l n m r w))) ⟨i, .online cw l n m r w⟩
  | semi (i n : ℕ) (t l : ℝ) : MIs (some (.inl (.semi n t l))) ⟨i, .semi n t l⟩
  | multinomial (i : ℕ) (mu : ℝ) : MIs (some (.inl (.multinomial mu))) ⟨i, .multinomial mu⟩
  | correspondence (i : ℕ) (mu : ℝ) : MIs (some (.inl (.correspondence mu))) ⟨i, .correspondence mu⟩

/-- The expectation step was chosen with one of the named methods and is a supervised one. -/
def NamedSupervisedE : Option (ESpec ⊕ EPtr) → Prop
  | some (.inl s) => ∀ n t l x, s ≠ .classic n t l x
  | _ => False

/-- The maximisation step was chosen with one of the named methods and is a supervised one. -/
def NamedSupervisedM : Option (MSpec ⊕ MPtr) → Prop
  | some (.inl s) => s ≠ .classic
  | _ => False

/-! ### Lemmas about the specification -/

@[simp] theorem last_nil {A : Type} (f : Call → Option A) : last f [] = none := rfl

@[simp] theorem last_snoc {A : Type} (f : Call → Option A) (h : List Call) (c : Call) :
    last f (h ++ [c]) = (f c).or (last f h) := by
  simp only [last, List.reverse_append, List.reverse_cons, List.reverse_nil, List.nil_append,
    List.singleton_append, List.findSome?_cons]
  cases f c <;> rfl

theorem quiet_nil (pre : List Call) : Quiet pre [] := by
  intro p c q h
  simp at h

theorem quiet_snoc {pre post : List Call} {c : Call} :
    Quiet pre (post ++ [c]) ↔ Quiet pre post ∧ ∀ e, ¬ SetsEta (pre ++ post) c e := by
  constructor
  · intro h
    refine ⟨fun p d q e => h p d (q ++ [c]) (by simp [e]), h post c [] rfl⟩
  · rintro ⟨h1, h2⟩ p d q e
    rcases List.eq_nil_or_concat q with rfl | ⟨q', x, rfl⟩
    · have := List.append_inj' e rfl
      obtain ⟨rfl, hd⟩ := this
      obtain rfl : c = d := by simpa using hd
      exact h2
    · rw [List.concat_eq_append, ← List.cons_append, ← List.append_assoc] at e
      have := List.append_inj' e rfl
      exact h1 p d q' this.1

theorem etaIs_snoc_sets {h : List Call} {c : Call} {e : DMat} (hs : SetsEta h c e) : EtaIs (h ++ [c]) e :=
  .inl ⟨h, c, [], rfl, hs, quiet_nil _⟩

theorem etaIs_snoc_quiet {h : List Call} {c : Call} {e : DMat} (hs : ∀ e, ¬ SetsEta h c e) (he : EtaIs h e) :
    EtaIs (h ++ [c]) e := by
  rcases he with ⟨pre, d, post, rfl, h1, h2⟩ | ⟨rfl, h⟩
  · refine .inl ⟨pre, d, post ++ [c], by simp, h1, quiet_snoc.2 ⟨h2, fun e => ?_⟩⟩
    have := hs e
    simpa using this
  · exact .inr ⟨rfl, quiet_snoc.2 ⟨h, by simpa using hs⟩⟩

/-- There is only one value. -/
theorem setsEta_unique {h : List Call} {c : Call} {e e' : DMat} (a : SetsEta h c e) (b : SetsEta h c e') :
    e = e' := by
  cases a <;> cases b <;> rfl

theorem etaIs_snoc {h : List Call} {c : Call} {e : DMat} (he : EtaIs (h ++ [c]) e) :
    SetsEta h c e ∨ ((∀ e, ¬ SetsEta h c e) ∧ EtaIs h e) := by
  rcases he with ⟨pre, d, post, hh, h1, h2⟩ | ⟨rfl, hq⟩
  · rcases List.eq_nil_or_concat post with rfl | ⟨q, x, rfl⟩
    · obtain ⟨rfl, hd⟩ := List.append_inj' hh rfl
      obtain rfl : c = d := by simpa using hd
      exact .inl h1
    · rw [List.concat_eq_append, ← List.cons_append, ← List.append_assoc] at hh
      obtain ⟨rfl, hd⟩ := List.append_inj' hh rfl
      obtain rfl : c = x := by simpa using hd
      rw [List.concat_eq_append, quiet_snoc] at h2
      refine .inr ⟨fun e => ?_, .inl ⟨pre, d, q, rfl, h1, h2.1⟩⟩
      simpa using h2.2 e
  · rw [quiet_snoc] at hq
    exact .inr ⟨by simpa using hq.2, .inr ⟨rfl, hq.1⟩⟩

theorem etaIs_unique : ∀ {h : List Call} {e e' : DMat}, EtaIs h e → EtaIs h e' → e = e' := by
  intro h
  induction h using List.reverseRecOn with
  | nil =>
    intro e e' a b
    have : ∀ {x}, EtaIs [] x → x = .empty := by
      rintro x (⟨p, c, q, h, _⟩ | ⟨h, _⟩)
      · simp at h
      · exact h
    rw [this a, this b]
  | append_singleton h c ih =>
    intro e e' a b
    rcases etaIs_snoc a with a | ⟨a1, a2⟩ <;> rcases etaIs_snoc b with b | ⟨b1, b2⟩
    · exact setsEta_unique a b
    · exact absurd a (b1 _)
    · exact absurd b (a1 _)
    · exact ih a2 b2

/-! ### The builder does what it is asked for -/

theorem calls_snoc (b : Builder) (h : List Call) (c : Call) :
    calls b (h ++ [c]) = (calls b h).bind fun b' => (call b' c).map Prod.fst := by
  induction h generalizing b with
  | nil =>
    cases hc : call b c <;> simp [calls, hc]
  | cons d h ih =>
    cases hd : call b d with
    | none => simp [calls, hd]
    | some r => simp [calls, hd, ih]

/-- The builder agrees with the history. -/
structure Agrees (hc : ℕ) (h : List Call) (b : Builder) : Prop where
  iterations : b.iterations = (last iterationsOf h).getD 20
  workers : b.workers = (last workersOf h).getD hc
  e : EIs (last eChoice h) b.e
  m : MIs (last mChoice h) b.m
  eReq : b.eReq = true ↔ NamedSupervisedE (last eChoice h)
  mReq : b.mReq = true ↔ NamedSupervisedM (last mChoice h)
  topics : (b.params.alpha, b.params.beta) = (last topicsOf h).getD (.empty, .empty)
  eta : EtaIs h b.params.eta

theorem orNew_is (n : ℕ) (p : Option EPtr) (k : EKind) : OrDefault k p (orNew n p k).1 := by
  cases p with
  | none => exact .default n
  | some p => exact .given p

theorem getE_is (n : ℕ) (s : ESpec) : EIs (some (.inl s)) (getE n s).1 := by
  cases s with
  | classic i t l s => exact .classic ..
  | supervised i t f l s => exact .supervised ..
  | fast i t C l s => exact .fast ..
  | semi p q => exact .semi _ (orNew_is ..) (orNew_is ..)
  | multinomial i t m w l s => exact .multinomial ..
  | correspondence i t m l s => exact .correspondence ..

theorem getM_is (n : ℕ) (s : MSpec) : MIs (some (.inl s)) (getM n s).1 := by
  cases s with
  | classic => exact .classic _
  | fast i t l => exact .fast ..
  | supervised i t l => exact .supervised ..
  | onlineClasses c l b m r w =>
    exact .classes _ _ _ _ _ _ _ (by simp) fun x hx => (List.mem_replicate.1 hx).2
  | onlineWeights c l b m r w => exact .weights ..
  | semi i t l => exact .semi ..
  | multinomial mu => exact .multinomial ..
  | correspondence mu => exact .correspondence ..

theorem eFlag_iff (s : ESpec) : eFlag s = true ↔ NamedSupervisedE (some (.inl s)) := by
  cases s <;> simp [eFlag, NamedSupervisedE]

theorem mFlag_iff (s : MSpec) : mFlag s = true ↔ NamedSupervisedM (some (.inl s)) := by
  cases s <;> simp [mFlag, NamedSupervisedM]

theorem Agrees.rows {hc : ℕ} {h : List Call} {b : Builder} (a : Agrees hc h b) :
    b.params.beta.rows = Build.topics h := by
  have := congrArg Prod.snd a.topics
  simp only at this
  rw [Build.topics, this]
  cases last topicsOf h <;> rfl

theorem agrees_new (hc n : ℕ) : Agrees hc [] (Builder.new hc n) where
  iterations := rfl
  workers := rfl
  e := .none n
  m := .none _
  eReq := by simp [Builder.new, NamedSupervisedE]
  mReq := by simp [Builder.new, NamedSupervisedM]
  topics := rfl
  eta := .inr ⟨rfl, quiet_nil _⟩

theorem noEta {h : List Call} {c : Call} (hz : ∀ n, c ≠ .etaZeros n) (hu : ∀ n, c ≠ .etaUniform n)
    (hm : ∀ p, c ≠ .etaFromModel p) : ∀ e, ¬ SetsEta h c e := by
  rintro e (⟨n, _⟩ | ⟨n, _⟩ | p)
  · exact hz n rfl
  · exact hu n rfl
  · exact hm _ rfl

theorem agrees_const {hc : ℕ} {h : List Call} {b : Builder} (a : Agrees hc h b) {c : Call} {n : ℕ} {v : ℝ}
    (hs : ∀ e, SetsEta h c e ↔ topics h ≠ 0 ∧ e = ⟨topics h, n, fun _ _ => v⟩)
    (h1 : iterationsOf c = none) (h2 : workersOf c = none) (h3 : eChoice c = none) (h4 : mChoice c = none)
    (h5 : topicsOf c = none) : Agrees hc (h ++ [c]) (constEta b n v).1 := by
  have hr := a.rows
  unfold constEta
  split_ifs with h0
  · have h0' : topics h = 0 := by omega
    exact
      { iterations := by simp [h1, a.iterations]
        workers := by simp [h2, a.workers]
        e := by simpa [h3] using a.e
        m := by simpa [h4] using a.m
        eReq := by simpa [h3] using a.eReq
        mReq := by simpa [h4] using a.mReq
        topics := by simpa [h5] using a.topics
        eta := etaIs_snoc_quiet (fun e => by rw [hs]; simp [h0']) a.eta }
  · have h0' : topics h ≠ 0 := by omega
    exact
      { iterations := by simp [h1, a.iterations, setEta]
        workers := by simp [h2, a.workers, setEta]
        e := by simpa [h3, setEta] using a.e
        m := by simpa [h4, setEta] using a.m
        eReq := by simpa [h3, setEta] using a.eReq
        mReq := by simpa [h4, setEta] using a.mReq
        topics := by simpa [h5, setEta] using a.topics
        eta := etaIs_snoc_sets ((hs _).2 ⟨h0', by simp only [setEta]; rw [hr]⟩) }

theorem agrees_call {hc : ℕ} {h : List Call} {b b' : Builder} {t : Option Throw} (a : Agrees hc h b) (c : Call)
    (hcall : call b c = some (b', t)) : Agrees hc (h ++ [c]) b' := by
  obtain ⟨a1, a2, a3, a4, a5, a6, a7, a8⟩ := a
  cases c with
  | setIterations n =>
    simp only [call, Option.some.injEq, Prod.mk.injEq] at hcall
    obtain ⟨rfl, _⟩ := hcall
    constructor <;>
      first
      | (simpa [iterationsOf, workersOf, eChoice, mChoice, topicsOf] using (by assumption))
      | exact etaIs_snoc_quiet (noEta (by simp) (by simp) (by simp)) a8
      | simp [iterationsOf]
  | setWorkers n =>
    simp only [call, Option.some.injEq, Prod.mk.injEq] at hcall
    obtain ⟨rfl, _⟩ := hcall
    constructor <;>
      first
      | (simpa [iterationsOf, workersOf, eChoice, mChoice, topicsOf] using (by assumption))
      | exact etaIs_snoc_quiet (noEta (by simp) (by simp) (by simp)) a8
      | simp [workersOf]
  | setEStep s =>
    simp only [call, Option.some.injEq, Prod.mk.injEq] at hcall
    obtain ⟨rfl, _⟩ := hcall
    constructor
    · simpa [iterationsOf, setEStep, setE, setMStep, setM] using a1
    · simpa [workersOf, setEStep, setE, setMStep, setM] using a2
    · simpa [eChoice, setEStep, setE] using getE_is b.next s
    · simpa [mChoice, setEStep, setE, setMStep, setM] using a4
    · simpa [eChoice, setEStep, setE] using eFlag_iff s
    · simpa [mChoice, setEStep, setE, setMStep, setM] using a6
    · simpa [topicsOf, setEStep, setE, setMStep, setM] using a7
    · exact etaIs_snoc_quiet (noEta (by simp) (by simp) (by simp)) a8
  | setE p =>
    simp only [call, Option.some.injEq, Prod.mk.injEq] at hcall
    obtain ⟨rfl, _⟩ := hcall
    constructor
    · simpa [iterationsOf, setEStep, setE, setMStep, setM] using a1
    · simpa [workersOf, setEStep, setE, setMStep, setM] using a2
    · simpa [eChoice, setE] using EIs.given p
    · simpa [mChoice, setEStep, setE, setMStep, setM] using a4
    · simp [eChoice, setE, NamedSupervisedE]
    · simpa [mChoice, setEStep, setE, setMStep, setM] using a6
    · simpa [topicsOf, setEStep, setE, setMStep, setM] using a7
    · exact etaIs_snoc_quiet (noEta (by simp) (by simp) (by simp)) a8
  | setMStep s =>
    simp only [call, Option.some.injEq, Prod.mk.injEq] at hcall
    obtain ⟨rfl, _⟩ := hcall
    constructor
    · simpa [iterationsOf, setEStep, setE, setMStep, setM] using a1
    · simpa [workersOf, setEStep, setE, setMStep, setM] using a2
    · simpa [eChoice, setEStep, setE, setMStep, setM] using a3
    · simpa [mChoice, setMStep, setM] using getM_is b.next s
    · simpa [eChoice, setEStep, setE, setMStep, setM] using a5
    · simpa [mChoice, setMStep, setM] using mFlag_iff s
    · simpa [topicsOf, setEStep, setE, setMStep, setM] using a7
    · exact etaIs_snoc_quiet (noEta (by simp) (by simp) (by simp)) a8
  | setM p =>
    simp only [call, Option.some.injEq, Prod.mk.injEq] at hcall
    obtain ⟨rfl, _⟩ := hcall
    constructor
    · simpa [iterationsOf, setEStep, setE, setMStep, setM] using a1
    · simpa [workersOf, setEStep, setE, setMStep, setM] using a2
    · simpa [eChoice, setEStep, setE, setMStep, setM] using a3
    · simpa [mChoice, setM] using MIs.given p
    · simpa [eChoice, setEStep, setE, setMStep, setM] using a5
    · simp [mChoice, setM, NamedSupervisedM]
    · simpa [topicsOf, setEStep, setE, setMStep, setM] using a7
    · exact etaIs_snoc_quiet (noEta (by simp) (by simp) (by simp)) a8
  | topicsSeeded docs k n pick =>
    simp only [call, Option.map_eq_some_iff, Prod.mk.injEq] at hcall
    obtain ⟨tp, h1, rfl, _⟩ := hcall
    constructor
    · simpa [iterationsOf, setTopics] using a1
    · simpa [workersOf, setTopics] using a2
    · simpa [eChoice, setTopics] using a3
    · simpa [mChoice, setTopics] using a4
    · simpa [eChoice, setTopics] using a5
    · simpa [mChoice, setTopics] using a6
    · simp [topicsOf, setTopics, h1]
    · exact etaIs_snoc_quiet (noEta (by simp) (by simp) (by simp)) a8
  | topicsRandom w k draw =>
    simp only [call, Option.some.injEq, Prod.mk.injEq] at hcall
    obtain ⟨rfl, _⟩ := hcall
    constructor
    · simpa [iterationsOf, setTopics] using a1
    · simpa [workersOf, setTopics] using a2
    · simpa [eChoice, setTopics] using a3
    · simpa [mChoice, setTopics] using a4
    · simpa [eChoice, setTopics] using a5
    · simpa [mChoice, setTopics] using a6
    · simp [topicsOf, setTopics]
    · exact etaIs_snoc_quiet (noEta (by simp) (by simp) (by simp)) a8
  | topicsFromModel p =>
    simp only [call, Option.some.injEq, Prod.mk.injEq] at hcall
    obtain ⟨rfl, _⟩ := hcall
    constructor
    · simpa [iterationsOf, setTopics] using a1
    · simpa [workersOf, setTopics] using a2
    · simpa [eChoice, setTopics] using a3
    · simpa [mChoice, setTopics] using a4
    · simpa [eChoice, setTopics] using a5
    · simpa [mChoice, setTopics] using a6
    · simp [topicsOf, setTopics]
    · exact etaIs_snoc_quiet (noEta (by simp) (by simp) (by simp)) a8
  | etaZeros n =>
    simp only [call, Option.some.injEq] at hcall
    obtain rfl : _ = b' := congrArg Prod.fst hcall
    refine agrees_const ⟨a1, a2, a3, a4, a5, a6, a7, a8⟩ (fun e => ?_) rfl rfl rfl rfl rfl
    constructor
    · rintro ⟨_, hk⟩
      exact ⟨hk, rfl⟩
    · rintro ⟨hk, rfl⟩
      exact .zeros n hk
  | etaUniform n =>
    simp only [call, Option.some.injEq] at hcall
    obtain rfl : _ = b' := congrArg Prod.fst hcall
    refine agrees_const ⟨a1, a2, a3, a4, a5, a6, a7, a8⟩ (fun e => ?_) rfl rfl rfl rfl rfl
    constructor
    · rintro (_ | ⟨_, hk⟩)
      exact ⟨hk, rfl⟩
    · rintro ⟨hk, rfl⟩
      exact .uniform n hk
  | etaFromModel p =>
    simp only [call, Option.some.injEq, Prod.mk.injEq] at hcall
    obtain ⟨rfl, _⟩ := hcall
    constructor
    · simpa [iterationsOf, setEta] using a1
    · simpa [workersOf, setEta] using a2
    · simpa [eChoice, setEta] using a3
    · simpa [mChoice, setEta] using a4
    · simpa [eChoice, setEta] using a5
    · simpa [mChoice, setEta] using a6
    · simpa [topicsOf, setEta] using a7
    · exact etaIs_snoc_sets (.model p)

theorem agrees {hc n : ℕ} {h : List Call} {b : Builder} (hb : calls (Builder.new hc n) h = some b) :
    Agrees hc h b := by
  induction h using List.reverseRecOn generalizing b with
  | nil =>
    simp only [calls, Option.some.injEq] at hb
    rw [← hb]
    exact agrees_new hc n
  | append_singleton h c ih =>
    rw [calls_snoc, Option.bind_eq_some_iff] at hb
    obtain ⟨b1, h1, h2⟩ := hb
    rw [Option.map_eq_some_iff] at h2
    obtain ⟨⟨b2, t⟩, h2, rfl⟩ := h2
    exact agrees_call (ih h1) c h2

/-- An `initialize_topics_*` call. -/
def IsTopics : Call → Prop
  | .topicsSeeded .. => True
  | .topicsRandom .. => True
  | .topicsFromModel _ => True
  | _ => False

/-- A call with sensible arguments: at least one topic, and a model that has an `eta`. -/
def Usable (c : Call) : Prop :=
  (∀ t, topicsOf c = some t → t.2.rows ≠ 0) ∧ ∀ p, c = .etaFromModel p → p.eta.rows ≠ 0

/-! ### C62 -/

/-- **C62**, the part that holds, exactly: converting throws for want of topics if and only if the last
initialisation gave none, and for want of `eta` if and only if the last initialisation gave none and one of the
steps was chosen as a supervised one with its named method; otherwise the LDA has the last iterations,
workers, steps and parameters.  Missing: supervised steps chosen with `set_e` and `set_m` (`C62_set_e`,
`C62_set_m`). -/
theorem C62_build_partial {hc n : ℕ} {h : List Call} {b : Builder}
    (hb : calls (Builder.new hc n) h = some b) :
    (b.build = .error .noTopics ↔ topics h = 0) ∧
    (b.build = .error .noEta ↔ topics h ≠ 0 ∧ (∃ eta, EtaIs h eta ∧ eta.rows = 0) ∧
      (NamedSupervisedE (last eChoice h) ∨ NamedSupervisedM (last mChoice h))) ∧
    b.build ≠ .error .etaBeforeTopics ∧
    ∀ l, b.build = .ok l →
      l.iterations = (last iterationsOf h).getD 20 ∧ l.workers = (last workersOf h).getD hc ∧
      EIs (last eChoice h) l.e ∧ MIs (last mChoice h) l.m ∧
      last topicsOf h = some (l.params.alpha, l.params.beta) ∧ EtaIs h l.params.eta := by
  have a := agrees hb
  have hr := a.rows
  have he : (∃ eta, EtaIs h eta ∧ eta.rows = 0) ↔ b.params.eta.rows = 0 :=
    ⟨fun ⟨eta, h1, h2⟩ => by rw [etaIs_unique a.eta h1]; exact h2, fun h0 => ⟨_, a.eta, h0⟩⟩
  rw [he, ← a.eReq, ← a.mReq, ← hr]
  refine ⟨?_, ?_, ?_, ?_⟩
  · unfold Builder.build
    split_ifs <;> simp_all
  · unfold Builder.build
    split_ifs with h1 h2
    · simp [h1]
    · simp [h1, h2.1, h2.2]
    · simp only [reduceCtorEq, false_iff]
      exact fun h => h2 h.2
  · unfold Builder.build
    split_ifs <;> simp
  · intro l hl
    unfold Builder.build at hl
    split_ifs at hl with h1 h2
    cases hl
    refine ⟨a.iterations, a.workers, a.e, a.m, ?_, a.eta⟩
    have ht := a.topics
    cases hl : last topicsOf h with
    | none =>
      rw [hr, topics, hl] at h1
      exact absurd rfl h1
    | some t => rw [hl] at ht; simp [ht]

theorem last_none {A : Type} {f : Call → Option A} {h : List Call} :
    last f h = none ↔ ∀ c ∈ h, f c = none := by
  simp [last, List.findSome?_eq_none_iff]

theorem last_mem {A : Type} {f : Call → Option A} {h : List Call} {a : A} (hl : last f h = some a) :
    ∃ c ∈ h, f c = some a := by
  obtain ⟨c, hc, hf⟩ := List.exists_of_findSome?_eq_some hl
  exact ⟨c, List.mem_reverse.1 hc, hf⟩

theorem call_isSome (b : Builder) (c : Call) : (call b c).isSome ↔ (IsTopics c → (topicsOf c).isSome) := by
  cases c <;> simp [call, IsTopics, topicsOf]

/-- Only seeding from a corpus without documents or with documents of different lengths is undefined. -/
theorem C62_defined (b : Builder) (h : List Call) :
    (calls b h).isSome ↔ ∀ c ∈ h, IsTopics c → (topicsOf c).isSome := by
  induction h generalizing b with
  | nil => simp [calls]
  | cons c h ih =>
    rw [List.forall_mem_cons, ← call_isSome b c, calls]
    cases call b c with
    | none => simp
    | some r => simpa using ih r.1

/-- **C62** for calls with sensible arguments: converting throws for want of topics if and only if no
`initialize_topics_*` method was called, and for want of `eta` if and only if `eta` was never initialised (an
attempt before the topics were initialised does not count) and a step is a supervised one. -/
theorem C62_never_partial {hc n : ℕ} {h : List Call} {b : Builder}
    (hb : calls (Builder.new hc n) h = some b) (hu : ∀ c ∈ h, Usable c) :
    (b.build = .error .noTopics ↔ ∀ c ∈ h, ¬ IsTopics c) ∧
    (b.build = .error .noEta ↔ (∃ c ∈ h, IsTopics c) ∧ Quiet [] h ∧
      (NamedSupervisedE (last eChoice h) ∨ NamedSupervisedM (last mChoice h))) := by
  obtain ⟨h1, h2, _⟩ := C62_build_partial hb
  have hd : ∀ c ∈ h, IsTopics c → (topicsOf c).isSome :=
    (C62_defined (Builder.new hc n) h).1 (by rw [hb]; rfl)
  have hnt : ∀ c, ¬ IsTopics c → topicsOf c = none := by
    intro c; cases c <;> simp [IsTopics, topicsOf]
  have ht : topics h = 0 ↔ ∀ c ∈ h, ¬ IsTopics c := by
    constructor
    · intro h0 c hc hi
      rw [topics] at h0
      cases hl : last topicsOf h with
      | none =>
        have := last_none.1 hl c hc
        have h3 := hd c hc hi
        rw [this] at h3
        simp at h3
      | some t =>
        rw [hl] at h0
        obtain ⟨c, hc, hf⟩ := last_mem hl
        exact (hu c hc).1 t hf h0
    · intro hn
      have : last topicsOf h = none := last_none.2 fun c hc => hnt c (hn c hc)
      rw [topics, this]
  have hq : (∃ eta, EtaIs h eta ∧ eta.rows = 0) ↔ Quiet [] h := by
    constructor
    · rintro ⟨eta, he, h0⟩
      rcases he with ⟨pre, c, post, rfl, hs, _⟩ | ⟨_, hq⟩
      · exfalso
        rcases hs with ⟨k, hk⟩ | ⟨k, hk⟩ | p
        · exact hk h0
        · exact hk h0
        · exact (hu _ (by simp)).2 p rfl h0
      · exact hq
    · intro hq
      exact ⟨.empty, .inr ⟨rfl, hq⟩, rfl⟩
  refine ⟨h1.trans ht, h2.trans ?_⟩
  rw [hq, ne_eq, ht]
  push Not
  rfl

/-- **C62**: `initialize_eta_zeros` and `initialize_eta_uniform` throw exactly if there are no topics yet, and
then the builder is as before. -/
theorem C62_eta_before_topics {hc n : ℕ} {h : List Call} {b b' : Builder} {t : Option Throw} {c : Call}
    (hb : calls (Builder.new hc n) h = some b) (hcall : call b c = some (b', t)) :
    (t = some .etaBeforeTopics ↔ topics h = 0 ∧ ((∃ k, c = .etaZeros k) ∨ ∃ k, c = .etaUniform k)) ∧
    (t ≠ none → t = some .etaBeforeTopics ∧ b' = b) := by
  have hr := (agrees hb).rows
  cases c with
  | etaZeros k =>
    simp only [call, constEta, hr, Option.some.injEq] at hcall
    split_ifs at hcall with h0 <;> cases hcall <;> simp <;> omega
  | etaUniform k =>
    simp only [call, constEta, hr, Option.some.injEq] at hcall
    split_ifs at hcall with h0 <;> cases hcall <;> simp <;> omega
  | topicsSeeded d k m p =>
    simp only [call, Option.map_eq_some_iff, Prod.mk.injEq] at hcall
    obtain ⟨_, _, _, rfl⟩ := hcall
    simp
  | _ =>
    simp only [call, Option.some.injEq, Prod.mk.injEq] at hcall
    obtain ⟨_, rfl⟩ := hcall
    simp

theorem build_ok {b : Builder} (h1 : b.params.beta.rows ≠ 0)
    (h2 : ¬ (b.params.eta.rows = 0 ∧ (b.eReq = true ∨ b.mReq = true))) :
    b.build = .ok ⟨b.iterations, b.workers, b.e, b.m, b.params⟩ := by
  rw [Builder.build, if_neg h1, if_neg h2]

/-- A model with one topic and one word and without `eta`. -/
noncomputable def oneTopic : Params := ⟨⟨1, fun _ => 1⟩, ⟨1, 1, fun _ _ => 1⟩, .empty⟩

/-- **C62 is false**: a supervised expectation step chosen with `set_e(get_supervised_e_step())` is accepted
without `eta`, while `set_supervised_e_step()` is refused. -/
theorem C62_set_e (hc n : ℕ) :
    (∃ b l, calls (Builder.new hc n)
        [.topicsFromModel oneTopic, .setE (.leaf 7 (.supervised 10 (1 / 100) 10 1 0))] = some b ∧
      b.build = .ok l ∧ l.params.eta.rows = 0 ∧ l.e = .leaf 7 (.supervised 10 (1 / 100) 10 1 0)) ∧
    ∃ b, calls (Builder.new hc n) [.topicsFromModel oneTopic, .setEStep (.supervised 10 (1 / 100) 10 1 0)] =
      some b ∧ b.build = .error .noEta := by
  constructor
  · refine ⟨_, _, rfl, build_ok ?_ ?_, rfl, rfl⟩
    · simp [setE, setTopics, oneTopic]
    · simp [setE, setTopics, Builder.new]
  · refine ⟨_, rfl, ?_⟩
    simp [Builder.build, setEStep, setE, eFlag, setTopics, oneTopic, Builder.new, Params.empty, DMat.empty]

/-- **C62 is false** for the maximisation step as well. -/
theorem C62_set_m (hc n : ℕ) :
    ∃ b l, calls (Builder.new hc n)
        [.topicsFromModel oneTopic, .setM ⟨7, .supervised 10 (1 / 100) (1 / 100)⟩] = some b ∧
      b.build = .ok l ∧ l.params.eta.rows = 0 ∧ l.m.kind = .supervised 10 (1 / 100) (1 / 100) := by
  refine ⟨_, _, rfl, build_ok ?_ ?_, rfl, rfl⟩
  · simp [setM, setTopics, oneTopic]
  · simp [setM, setTopics, Builder.new]

/-! ### C82 -/

/-- The sizes of the parameters fit together. -/
def Params.Fits (p : Params) : Prop :=
  p.alpha.n = p.beta.rows ∧ (p.eta.rows = 0 ∨ p.eta.rows = p.beta.rows)

theorem seeded_sizes {docs : List (List ℕ)} {k N : ℕ} {pick : ℕ → ℕ → ℕ} {t : DVec × DMat}
    (h : seeded docs k N pick = some t) :
    t.1 = initAlpha k ∧ t.2.rows = k ∧ ∃ d ∈ docs, t.2.cols = d.length := by
  cases docs with
  | nil => simp [seeded] at h
  | cons d ds =>
    simp only [seeded, Option.map_eq_some_iff] at h
    obtain ⟨m, _, rfl⟩ := h
    exact ⟨rfl, rfl, d, by simp, rfl⟩

/-- **C82**, the part that holds: if the models passed to the builder fit, and the last initialisation of the
topics came before the last one of `eta`, which was done with `initialize_eta_zeros` or
`initialize_eta_uniform`, then the parameters of the LDA fit.  Missing: topics that are initialised again after
`eta` (`C82_reinitialised`), and `eta` from a model of another size. -/
theorem C82_fits_partial {hc n : ℕ} {pre post : List Call} {c : Call} {b : Builder} {l : Built}
    (hm : ∀ p, Call.topicsFromModel p ∈ pre → p.alpha.n = p.beta.rows)
    (hcc : (∃ k, c = .etaZeros k) ∨ ∃ k, c = .etaUniform k)
    (hpost : ∀ d ∈ post, ¬ IsTopics d ∧ ∀ p, d ≠ .etaFromModel p)
    (hb : calls (Builder.new hc n) (pre ++ c :: post) = some b) (hl : b.build = .ok l) : l.params.Fits := by
  obtain ⟨_, _, _, h4⟩ := C62_build_partial hb
  obtain ⟨_, _, _, _, ht, he⟩ := h4 l hl
  have hnt : ∀ c, ¬ IsTopics c → topicsOf c = none := by
    intro c; cases c <;> simp [IsTopics, topicsOf]
  have hstep : ∀ q, (∀ d ∈ q, ¬ IsTopics d) → last topicsOf (pre ++ q) = last topicsOf pre := by
    intro q hq
    induction q using List.reverseRecOn with
    | nil => simp
    | append_singleton q d ih =>
      rw [← List.append_assoc, last_snoc, hnt d (hq d (by simp)), Option.none_or]
      exact ih fun x hx => hq x (by simp [hx])
  have hcT : ¬ IsTopics c := by rcases hcc with ⟨k, rfl⟩ | ⟨k, rfl⟩ <;> simp [IsTopics]
  have hlast : last topicsOf pre = some (l.params.alpha, l.params.beta) := by
    rw [← ht, hstep]
    intro d hd
    rcases List.mem_cons.1 hd with rfl | hd
    · exact hcT
    · exact (hpost d hd).1
  have htop : ∀ q, (∀ d ∈ q, ¬ IsTopics d) → topics (pre ++ q) = l.params.beta.rows := by
    intro q hq
    rw [topics, hstep q hq, hlast]
  have hα : l.params.alpha.n = l.params.beta.rows := by
    obtain ⟨d, hd, hf⟩ := last_mem hlast
    cases d with
    | topicsSeeded docs k N pick =>
      obtain ⟨h1, h2, _⟩ := seeded_sizes hf
      simp only at h1 h2
      rw [h1, h2]
      rfl
    | topicsRandom w k draw =>
      simp only [topicsOf, Option.some.injEq, randomTopics, Prod.mk.injEq] at hf
      rw [← hf.1, ← hf.2]
      rfl
    | topicsFromModel p =>
      simp only [topicsOf, Option.some.injEq, Prod.mk.injEq] at hf
      rw [← hf.1, ← hf.2]
      exact hm p hd
    | _ => simp [topicsOf] at hf
  refine ⟨hα, ?_⟩
  have key : ∀ q, (∀ d ∈ q, ¬ IsTopics d ∧ ∀ p, d ≠ .etaFromModel p) → ∀ e, EtaIs (pre ++ c :: q) e →
      e.rows = 0 ∨ e.rows = l.params.beta.rows := by
    intro q
    induction q using List.reverseRecOn with
    | nil =>
      intro _ e he
      have h0 : topics pre = l.params.beta.rows := by simpa using htop [] (by simp)
      rcases etaIs_snoc he with hs | ⟨hs, _⟩
      · rcases hs with ⟨k, hk⟩ | ⟨k, hk⟩ | p
        · exact .inr h0
        · exact .inr h0
        · rcases hcc with ⟨k, h⟩ | ⟨k, h⟩ <;> cases h
      · exfalso
        have hne : topics pre ≠ 0 := by
          intro h00
          have : l.params.beta.rows = 0 := by omega
          unfold Builder.build at hl
          split_ifs at hl with h1 h2
          cases hl
          exact h1 this
        rcases hcc with ⟨k, rfl⟩ | ⟨k, rfl⟩
        · exact hs _ (.zeros k hne)
        · exact hs _ (.uniform k hne)
    | append_singleton q d ih =>
      intro hq e he
      rw [← List.cons_append, ← List.append_assoc] at he
      rcases etaIs_snoc he with hs | ⟨_, he⟩
      · have hall : ∀ x ∈ c :: q, ¬ IsTopics x := by
          intro x hx
          rcases List.mem_cons.1 hx with rfl | hx
          · exact hcT
          · exact (hq x (by simp [hx])).1
        have h0 := htop (c :: q) hall
        rcases hs with ⟨k, hk⟩ | ⟨k, hk⟩ | p
        · exact .inr h0
        · exact .inr h0
        · exact absurd rfl ((hq (.etaFromModel p) (by simp)).2 p)
      · exact ih (fun x hx => hq x (by simp [hx])) e he
  exact key post hpost _ he

/-- **C82 is false**: topics initialised again, with another number of them, leave an `eta` that does not fit;
the builder accepts. -/
theorem C82_reinitialised (hc n : ℕ) :
    ∃ b l, calls (Builder.new hc n)
        [.topicsRandom 5 2 fun _ _ => 1, .etaZeros 3, .topicsRandom 5 4 fun _ _ => 1,
          .setEStep (.supervised 10 (1 / 100) 10 1 0)] = some b ∧
      b.build = .ok l ∧ l.params.beta.rows = 4 ∧ l.params.eta.rows = 2 ∧ ¬ l.params.Fits := by
  have e : ∀ (b : Builder), b.params.beta.rows = 2 → constEta b 3 0 =
      (setEta b ⟨b.params.beta.rows, 3, fun _ _ => 0⟩, none) := fun b hb => by rw [constEta, if_neg (by omega)]
  refine ⟨_, _, rfl, build_ok ?_ ?_, ?_, ?_, ?_⟩
  · simp [setTopics, randomTopics, setEStep, setE]
  · rw [e _ rfl]
    simp [setTopics, randomTopics, setEStep, setE, setEta]
  · rfl
  · rw [e _ rfl]
    rfl
  · rw [e _ rfl]
    intro h
    have := h.2
    simp [setTopics, setEta, randomTopics, setEStep, setE] at this

/-! ### C63 -/

theorem seeded_fold {V : ℕ} {docs : List (List ℕ)} (picks : List ℕ) (row row' : Vec V ℝ)
    (h : picks.foldlM (fun row i => (docs[i % docs.length]?).bind (addWords row)) row = some row') (n : Fin V) :
    row' n = row n + ((picks.map fun i => (((docs[i % docs.length]?).getD [])[n.val]?.getD 0 : ℕ)).sum : ℕ) := by
  induction picks generalizing row with
  | nil =>
    simp only [List.foldlM_nil, pure, Option.some.injEq] at h
    simp [h]
  | cons i l ih =>
    simp only [List.foldlM_cons, bind, Option.bind_eq_some_iff] at h
    obtain ⟨r1, ⟨d, h1, h2⟩, h3⟩ := h
    rw [ih _ h3]
    unfold addWords at h2
    split_ifs at h2 with hl
    cases h2
    simp only [h1, Option.getD_some, List.map_cons, List.sum_cons]
    rw [List.getElem?_eq_getElem (by rw [hl]; exact n.isLt)]
    push_cast
    simp [add_assoc]

/-- The number of times word `n` occurs in the chosen documents. -/
def chosen (docs : List (List ℕ)) (picks : List ℕ) (n : ℕ) : ℕ :=
  (picks.map fun i => ((docs[i % docs.length]?).getD [])[n]?.getD 0).sum

/-- **C63**: the rows of `beta` after `initialize_topics_seeded` are the word counts of the chosen documents plus
one, normalised: strictly positive and of sum one. -/
theorem C63_seeded {docs : List (List ℕ)} {K N : ℕ} {pick : ℕ → ℕ → ℕ} {t : DVec × DMat}
    (h : seeded docs K N pick = some t) :
    ∃ V, (∃ d ∈ docs, d.length = V) ∧ ∃ beta : Mat K V ℝ, t = (⟨K, fun _ => 1 / K⟩, ⟨K, V, beta⟩) ∧
      ∀ k, (∀ n, 0 < beta k n) ∧ (0 < V → ∑ n, beta k n = 1) ∧
        ∀ n, beta k n * ∑ n : Fin V, (1 + chosen docs ((List.range N).map (pick k)) n : ℝ) =
          1 + chosen docs ((List.range N).map (pick k)) n := by
  cases docs with
  | nil => simp [seeded] at h
  | cons d ds =>
    simp only [seeded, Option.map_eq_some_iff] at h
    obtain ⟨beta, hb, rfl⟩ := h
    refine ⟨d.length, ⟨d, by simp, rfl⟩, beta, rfl, fun k => ?_⟩
    unfold rowsM at hb
    split_ifs at hb with hs
    cases hb
    have hk : seededRow d.length (d :: ds) ((List.range N).map (pick k)) =
        some ((seededRow d.length (d :: ds) ((List.range N).map (pick k))).get (hs k)) := by simp
    change (∀ n, 0 < (seededRow d.length (d :: ds) ((List.range N).map (pick k))).get (hs k) n) ∧
      (0 < d.length → ∑ n, (seededRow d.length (d :: ds) ((List.range N).map (pick k))).get (hs k) n = 1) ∧
      ∀ n, (seededRow d.length (d :: ds) ((List.range N).map (pick k))).get (hs k) n * _ = _
    generalize (seededRow d.length (d :: ds) ((List.range N).map (pick k))).get (hs k) = beta at hk ⊢
    simp only [seededRow, Option.bind_eq_some_iff] at hk
    obtain ⟨row, h1, h2⟩ := hk
    have hrow : row = fun n : Fin d.length => (1 + chosen (d :: ds) ((List.range N).map (pick k)) n : ℝ) := by
      funext n
      exact seeded_fold _ _ _ h1 n
    split_ifs at h2 with h0
    cases h2
    have hpos : ∀ n, 0 < row n := by
      intro n
      rw [hrow]
      positivity
    have hsum : ∀ _ : Fin d.length, 0 < ∑ n, row n := fun n =>
      Finset.sum_pos (fun n _ => hpos n) ⟨n, Finset.mem_univ n⟩
    refine ⟨fun n => div_pos (hpos n) (hsum n), fun hV => ?_, fun n => ?_⟩
    · rw [← Finset.sum_div, div_self (hsum ⟨0, hV⟩).ne']
    · have := (hsum n).ne'
      rw [hrow] at this ⊢
      exact div_mul_cancel₀ _ this

/-- **C63**: seeding is defined for every corpus with at least one document whose documents have the same number
of words. -/
theorem C63_seeded_defined {docs : List (List ℕ)} {V : ℕ} (hd : docs ≠ []) (hV : ∀ d ∈ docs, d.length = V)
    (K N : ℕ) (pick : ℕ → ℕ → ℕ) : (seeded docs K N pick).isSome := by
  cases docs with
  | nil => exact absurd rfl hd
  | cons d ds =>
    simp only [seeded, Option.isSome_map]
    rw [rowsM, dif_pos]
    · rfl
    intro k
    have hfold : ∀ (l : List ℕ) (row : Vec d.length ℝ), (∀ n, 0 < row n) → ∃ row' : Vec d.length ℝ,
        l.foldlM (fun row i => ((d :: ds)[i % (d :: ds).length]?).bind (addWords row)) row = some row' ∧
        ∀ n, 0 < row' n := by
      intro l
      induction l with
      | nil => intro row hr; exact ⟨row, rfl, hr⟩
      | cons i l ih =>
        intro row hr
        have hi : i % (d :: ds).length < (d :: ds).length := Nat.mod_lt _ (by simp)
        have hlen : ((d :: ds)[i % (d :: ds).length]).length = d.length := by
          rw [hV _ (List.getElem_mem hi), hV d (by simp)]
        obtain ⟨row', h1, h2⟩ := ih (fun n => row n +
          (((d :: ds)[i % (d :: ds).length])[n.val]'(by rw [hlen]; exact n.isLt) : ℕ)) (fun n => by
            have := hr n
            positivity)
        refine ⟨row', ?_, h2⟩
        rw [List.foldlM_cons, List.getElem?_eq_getElem hi]
        simp only [Option.bind_some, addWords, hlen, dite_true, bind]
        exact h1
    obtain ⟨row, h1, h2⟩ := hfold ((List.range N).map (pick k)) (fun _ => 1) (fun _ => one_pos)
    rw [seededRow, h1, Option.bind_some, if_neg]
    · rfl
    · rintro ⟨hp, h0⟩
      exact absurd h0 (Finset.sum_pos (fun n _ => h2 n) ⟨⟨0, hp⟩, Finset.mem_univ _⟩).ne'

/-- **C63**: the rows of `beta` after `initialize_topics_random`, for draws from `[0, 1)`: non-negative, and of
sum one unless all draws of the row were zero. -/
theorem C63_random (V K : ℕ) (draw : ℕ → ℕ → ℝ) (hd : ∀ k w, 0 ≤ draw k w) :
    ∃ beta : Mat K V ℝ, randomTopics V K draw = (⟨K, fun _ => 1 / K⟩, ⟨K, V, beta⟩) ∧
      ∀ k, (∀ n, 0 ≤ beta k n) ∧
        ((∃ n : Fin V, draw k n ≠ 0) → ∑ n, beta k n = 1 ∧ ∀ n, beta k n * ∑ n : Fin V, draw k n = draw k n) ∧
        ((∀ n : Fin V, draw k n = 0) → ∀ n, beta k n = 0) := by
  refine ⟨_, rfl, fun k => ⟨fun n => (C27_nonneg _ fun i j => hd i j).1 k n, ?_, ?_⟩⟩
  · rintro ⟨n, hn⟩
    refine (C27_normalize_rows (fun k w => draw k w) k).1 ?_
    intro h0
    exact hn ((Finset.sum_eq_zero_iff_of_nonneg (f := fun w : Fin V => draw k w) fun w _ => hd k w).1 h0 n
      (Finset.mem_univ n))
  · intro h0 n
    rw [(C27_normalize_rows (fun k w => draw k w) k).2 (Finset.sum_eq_zero fun w _ => h0 w)]
    exact h0 n

/-- **C63**: `alpha` sums to one. -/
theorem C63_alpha {K : ℕ} (hK : 0 < K) : ∑ _k : Fin K, (1 / K : ℝ) = 1 := by
  have : (K : ℝ) ≠ 0 := by positivity
  simp [this]

/-! ### Examples -/

/-- A corpus of two documents over three words meets the hypotheses of `C63_seeded_defined`. -/
example (K N : ℕ) (pick : ℕ → ℕ → ℕ) : (seeded [[1, 0, 2], [0, 3, 0]] K N pick).isSome :=
  C63_seeded_defined (V := 3) (by simp) (by simp) K N pick

/-- A history with sensible calls that is accepted: supervised steps, random topics, then `eta`. -/
example : ∃ b l, calls (Builder.new 4 0)
      [.setIterations 5, .setEStep (.semi none none), .etaZeros 2, .topicsRandom 3 2 (fun _ _ => 1),
        .etaUniform 2, .setMStep (.onlineClasses 2 1 1 0 0 0)] = some b ∧
    b.build = .ok l ∧ l.iterations = 5 ∧ l.workers = 4 ∧ l.params.eta.rows = 2 := by
  have e : ∀ (b : Builder) (v : ℝ), b.params.beta.rows = 2 → constEta b 2 v =
      (setEta b ⟨b.params.beta.rows, 2, fun _ _ => v⟩, none) := fun b v hb => by rw [constEta, if_neg (by omega)]
  refine ⟨_, _, rfl, build_ok ?_ ?_, ?_, ?_, ?_⟩
  all_goals rw [e _ _ rfl]
  · simp [setMStep, setM, setEta, setTopics, randomTopics]
  · simp [setMStep, setM, setEta, setTopics, randomTopics]
  all_goals
    simp [constEta, setMStep, setM, setEta, setTopics, randomTopics, setEStep, setE, Builder.new, Params.empty,
      DMat.empty]

end Verif.Build
