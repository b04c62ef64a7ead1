import Verif.Model.Apps
import Verif.Props.Builder

/-! Properties C67 and C84: where the applications start from. -/
namespace Verif.Apps

open MathUtils Build Finset

/-! ### Specification -/

/-- The number of classes of the labels `y`: one more than the largest. -/
def IsClasses (y : List ℕ) (c : ℕ) : Prop := (∃ l ∈ y, c = l + 1) ∧ ∀ l ∈ y, l < c

/-- The steps and the numbers that the command line asks for. -/
structure Configured (args : Args) (e : ESpec) (m : MSpec) (l : Built) : Prop where
  iterations : l.iterations = args.iterations
  workers : l.workers = args.workers
  e : ∃ next, l.e = (getE next e).1
  m : ∃ next, l.m = ⟨next, getMKind m⟩

/-- `K` distributions over `V` words. -/
def AreTopics (K V : ℕ) (beta : DMat) : Prop :=
  ∃ b : Mat K V ℝ, beta = ⟨K, V, b⟩ ∧ ∀ k, (∀ n, 0 ≤ b k n) ∧ ∑ n, b k n = 1

/-! ### Lemmas -/

theorem numClasses_spec (y : List ℕ) (hy : y ≠ []) : ∃ c, numClasses y = some c ∧ IsClasses y c := by
  obtain ⟨m, hm⟩ : ∃ m, y.max? = some m := by
    cases h : y.max? with
    | none => exact absurd (List.max?_eq_none_iff.1 h) hy
    | some m => exact ⟨m, rfl⟩
  refine ⟨m + 1, by rw [numClasses, hm]; rfl, ⟨m, List.max?_mem hm, rfl⟩, fun l hl => ?_⟩
  have := (List.max?_le_iff hm).1 le_rfl l hl
  omega

theorem runBuild_eq (b : Builder) (cs : List Call) (b' : Builder) (h : runCalls b cs = some (.ok b'))
    (h1 : b'.params.beta.rows ≠ 0) (h2 : b'.params.eta.rows ≠ 0 ∨ (b'.eReq = false ∧ b'.mReq = false)) :
    runBuild b cs = some (.ok ⟨b'.iterations, b'.workers, b'.e, b'.m, b'.params⟩) := by
  rw [runBuild, h, Option.map_some]
  simp only
  rw [build_ok h1 (by rintro ⟨a, b⟩; rcases h2 with h | h <;> simp_all)]

/-- The builder after the steps have been chosen. -/
noncomputable def configured (hc : ℕ) (args : Args) (e : ESpec) (m : MSpec) : Builder :=
  setMStep (setEStep { Builder.new hc 0 with iterations := args.iterations, workers := args.workers } e) m

theorem runCalls_configure (hc : ℕ) (args : Args) (e : ESpec) (m : MSpec) (cs : List Call) :
    runCalls (Builder.new hc 0)
        ([.setIterations args.iterations, .setWorkers args.workers, .setEStep e, .setMStep m] ++ cs) =
      runCalls (configured hc args e m) cs := by
  simp [runCalls, call, configured]

theorem configured_spec (hc : ℕ) (args : Args) (e : ESpec) (m : MSpec) (p : Params) :
    Configured args e m ⟨(configured hc args e m).iterations, (configured hc args e m).workers,
      (configured hc args e m).e, (configured hc args e m).m, p⟩ :=
  ⟨rfl, rfl, ⟨_, rfl⟩, ⟨_, rfl⟩⟩

theorem train_topics_eta (hc : ℕ) (args : Args) (e : ESpec) (m : MSpec) (t : Call) (v : DVec × DMat)
    (ht : ∀ b, call b t = some (setTopics b v, none)) (hv : v.2.rows ≠ 0) (c : ℕ) :
    ∃ l, runBuild (Builder.new hc 0)
        ([.setIterations args.iterations, .setWorkers args.workers, .setEStep e, .setMStep m] ++ [t, .etaZeros c]) =
          some (.ok l) ∧
      Configured args e m l ∧ l.params = ⟨v.1, v.2, ⟨v.2.rows, c, fun _ _ => 0⟩⟩ := by
  have hrun : runCalls (Builder.new hc 0)
      ([.setIterations args.iterations, .setWorkers args.workers, .setEStep e, .setMStep m] ++ [t, .etaZeros c]) =
      some (.ok { configured hc args e m with params := ⟨v.1, v.2, ⟨v.2.rows, c, fun _ _ => 0⟩⟩ }) := by
    rw [runCalls_configure]
    simp only [runCalls, ht, Option.bind_some]
    simp only [call, constEta, setTopics, Option.bind_some, setEta, Nat.le_zero, if_neg hv]
  exact ⟨_, runBuild_eq _ _ _ hrun hv (Or.inl hv), configured_spec hc args e m _, rfl⟩

/-! ### Continuing from an unsupervised model -/

/-- **C67 is false.**  A supervised training with `--continue_from_unsupervised=M` (and without `--continue`)
never gets anywhere: whatever the file `M` holds, the program stops with an exception, because it asks for the
value of `--continue`. -/
theorem C67_fails (files : String → Option Params) (r : Random) (hc : ℕ) (args : Args) (e : ESpec) (m : MSpec)
    (words : ℕ) (docs : List (List ℕ)) (y : List ℕ) (M : String) (h : args.continueFromUnsupervised = some M)
    (hn : args.continue_ = none) :
    supervisedTrain files r hc args e m words docs y = some (.error .notAString) := by
  simp [supervisedTrain, supervisedInit, h, hn, asString, bind, Except.bind]

/-- **C67** (both options).  Together with `--continue` the option is ignored. -/
theorem C67_ignored (files : String → Option Params) (r : Random) (hc : ℕ) (args : Args) (e : ESpec) (m : MSpec)
    (words : ℕ) (docs : List (List ℕ)) (y : List ℕ) (N : String) (h : args.continue_ = some N) :
    supervisedTrain files r hc args e m words docs y =
      supervisedTrain files r hc { args with continueFromUnsupervised := none } e m words docs y := by
  simp [supervisedTrain, supervisedInit, h]

/-- **C67, partial.**  The calls that the branch would make with the model `p` of the file do what is asked for:
the topics are those of `p` and `eta` is zero, with a column for each label.

Missing: that the model is loaded (`C67_fails`). -/
theorem C67_calls_partial (hc : ℕ) (args : Args) (e : ESpec) (m : MSpec) (p : Params) (hp : p.beta.rows ≠ 0) (c : ℕ) :
    ∃ l, runBuild (Builder.new hc 0)
        ([.setIterations args.iterations, .setWorkers args.workers, .setEStep e, .setMStep m] ++
          [.topicsFromModel p, .etaZeros c]) = some (.ok l) ∧
      Configured args e m l ∧ l.params = ⟨p.alpha, p.beta, ⟨p.beta.rows, c, fun _ _ => 0⟩⟩ :=
  train_topics_eta hc args e m _ (p.alpha, p.beta) (fun _ => rfl) hp c

/-! ### The other options -/

/-- **C84** (continue).  `--continue=N` starts from the parameters in the file `N`. -/
theorem C84_continue (files : String → Option Params) (r : Random) (hc : ℕ) (args : Args) (e : ESpec) (m : MSpec)
    (words : ℕ) (docs : List (List ℕ)) (y : List ℕ) (N : String) (h : args.continue_ = some N) (p : Params)
    (hN : files N = some p) (hb : p.beta.rows ≠ 0) (he : p.eta.rows ≠ 0) :
    ∃ l, supervisedTrain files r hc args e m words docs y = some (.ok l) ∧ Configured args e m l ∧ l.params = p := by
  have hrun : runCalls (Builder.new hc 0)
      ([.setIterations args.iterations, .setWorkers args.workers, .setEStep e, .setMStep m] ++
        [.topicsFromModel p, .etaFromModel p]) = some (.ok { configured hc args e m with params := p }) := by
    rw [runCalls_configure]
    rfl
  refine ⟨_, ?_, configured_spec hc args e m p, rfl⟩
  have hi : supervisedInit files r args words docs y = some (.ok [.topicsFromModel p, .etaFromModel p]) := by
    simp [supervisedInit, h, asString, loadLda, hN, bind, Except.bind]
  rw [supervisedTrain, hi]
  exact runBuild_eq _ _ _ hrun hb (Or.inl he)

/-- **C84** (no file).  Without the file the program stops. -/
theorem C84_no_file (files : String → Option Params) (r : Random) (hc : ℕ) (args : Args) (e : ESpec) (m : MSpec)
    (words : ℕ) (docs : List (List ℕ)) (y : List ℕ) (N : String) (h : args.continue_ = some N)
    (hN : files N = none) :
    supervisedTrain files r hc args e m words docs y = some (.error .cannotLoad) ∧
    unsupervisedTrain files r hc args e words docs = some (.error .cannotLoad) := by
  simp [supervisedTrain, supervisedInit, unsupervisedTrain, unsupervisedInit, h, asString, loadLda, hN, bind,
    Except.bind]

theorem random_topics (words K : ℕ) (draw : ℕ → ℕ → ℝ) (hd : ∀ k w, 0 ≤ draw k w)
    (hp : ∀ k, ∃ n : Fin words, draw k n ≠ 0) :
    (randomTopics words K draw).1 = ⟨K, fun _ => 1 / K⟩ ∧ AreTopics K words (randomTopics words K draw).2 := by
  obtain ⟨b, h1, h2⟩ := C63_random words K draw hd
  rw [h1]
  exact ⟨rfl, b, rfl, fun k => ⟨(h2 k).1, ((h2 k).2.1 (hp k)).1⟩⟩

theorem seeded_topics (words : ℕ) (hw : 0 < words) (docs : List (List ℕ)) (hd : docs ≠ [])
    (hl : ∀ d ∈ docs, d.length = words) (K N : ℕ) (pick : ℕ → ℕ → ℕ) :
    ∃ v, seeded docs K N pick = some v ∧ v.1 = ⟨K, fun _ => 1 / K⟩ ∧ AreTopics K words v.2 := by
  obtain ⟨v, hv⟩ := Option.isSome_iff_exists.1 (C63_seeded_defined hd hl K N pick)
  obtain ⟨V, ⟨d, hdm, hV⟩, b, rfl, h2⟩ := C63_seeded hv
  obtain rfl : V = words := hV.symm.trans (hl d hdm)
  exact ⟨_, hv, rfl, b, rfl, fun k => ⟨fun n => ((h2 k).1 n).le, (h2 k).2.1 hw⟩⟩

/-- **C84** (from scratch).  Without a model to continue from, both initialisations start the supervised
applications with `--topics` distributions over the words, `alpha = 1 / topics` and a zero `eta` that has a
column for each label up to the largest. -/
theorem C84_scratch (files : String → Option Params) (r : Random) (hc : ℕ) (args : Args) (e : ESpec) (m : MSpec)
    (words : ℕ) (docs : List (List ℕ)) (y : List ℕ) (h : args.continue_ = none)
    (hn : args.continueFromUnsupervised = none) (hy : y ≠ []) (hd : docs ≠ []) (hl : ∀ d ∈ docs, d.length = words)
    (hw : 0 < words) (hK : args.topics ≠ 0) (h0 : ∀ k w, 0 ≤ r.draw k w)
    (hp : ∀ k, ∃ n : Fin words, r.draw k n ≠ 0) :
    ∃ l c, supervisedTrain files r hc args e m words docs y = some (.ok l) ∧ Configured args e m l ∧
      IsClasses y c ∧ l.params.alpha = ⟨args.topics, fun _ => 1 / args.topics⟩ ∧
      AreTopics args.topics words l.params.beta ∧ l.params.eta = ⟨args.topics, c, fun _ _ => 0⟩ := by
  obtain ⟨c, hc1, hc2⟩ := numClasses_spec y hy
  by_cases hr : args.initializeRandom
  · obtain ⟨t1, t2⟩ := random_topics words args.topics r.draw h0 hp
    have hrows : (randomTopics words args.topics r.draw).2.rows = args.topics := rfl
    obtain ⟨l, a1, a2, a3⟩ := train_topics_eta hc args e m (.topicsRandom words args.topics r.draw)
      (randomTopics words args.topics r.draw) (fun _ => rfl) hK c
    have hi : supervisedInit files r args words docs y =
        some (.ok [.topicsRandom words args.topics r.draw, .etaZeros c]) := by
      simp [supervisedInit, h, hn, hr, hc1]
    refine ⟨l, c, by rw [supervisedTrain, hi]; exact a1, a2, hc2, ?_, ?_, ?_⟩
    · rw [a3]; exact t1
    · rw [a3]; exact t2
    · rw [a3]; rfl
  · obtain ⟨v, t0, t1, t2⟩ := seeded_topics words hw docs hd hl args.topics 30 r.pick
    have hrows : v.2.rows = args.topics := by obtain ⟨b, hb, -⟩ := t2; rw [hb]
    obtain ⟨l, a1, a2, a3⟩ := train_topics_eta hc args e m (.topicsSeeded docs args.topics 30 r.pick)
      v (fun b => by simp [call, t0]) (by rw [hrows]; exact hK) c
    have hi : supervisedInit files r args words docs y =
        some (.ok [.topicsSeeded docs args.topics 30 r.pick, .etaZeros c]) := by
      simp [supervisedInit, h, hn, hr, hc1]
    refine ⟨l, c, by rw [supervisedTrain, hi]; exact a1, a2, hc2, ?_, ?_, ?_⟩
    · rw [a3]; exact t1
    · rw [a3]; exact t2
    · rw [a3]; simp only; rw [hrows]

/-! ### The unsupervised application -/

theorem unsupervised_eta (hc : ℕ) (args : Args) (e : ESpec) (t : Call) (v : DVec × DMat)
    (ht : ∀ b, call b t = some (setTopics b v, none)) (hv : v.2.rows ≠ 0) :
    ∃ l, runBuild (Builder.new hc 0)
        ([.setIterations args.iterations, .setWorkers args.workers, .setEStep e] ++ [t, .etaZeros 1]) =
          some (.ok l) ∧
      Configured args e .classic l ∧ l.params = ⟨v.1, v.2, ⟨v.2.rows, 1, fun _ _ => 0⟩⟩ := by
  have hrun : runCalls (Builder.new hc 0)
      ([.setIterations args.iterations, .setWorkers args.workers, .setEStep e] ++ [t, .etaZeros 1]) =
      some (.ok { setEStep { Builder.new hc 0 with iterations := args.iterations, workers := args.workers } e with
        params := ⟨v.1, v.2, ⟨v.2.rows, 1, fun _ _ => 0⟩⟩ }) := by
    simp only [List.cons_append, List.nil_append, runCalls, ht]
    simp only [call, Option.bind_some, constEta, setTopics, setEta, Nat.le_zero, if_neg hv]
  exact ⟨_, runBuild_eq _ _ _ hrun hv (Or.inl hv), ⟨rfl, rfl, ⟨_, rfl⟩, ⟨_, rfl⟩⟩, rfl⟩

/-- **C84** (unsupervised, continue).  `lda train --continue=N` starts from the topics in the file `N`. -/
theorem C84_unsupervised_continue (files : String → Option Params) (r : Random) (hc : ℕ) (args : Args) (e : ESpec)
    (words : ℕ) (docs : List (List ℕ)) (N : String) (h : args.continue_ = some N) (p : Params)
    (hN : files N = some p) (hb : p.beta.rows ≠ 0) :
    ∃ l, unsupervisedTrain files r hc args e words docs = some (.ok l) ∧ Configured args e .classic l ∧
      l.params = ⟨p.alpha, p.beta, ⟨p.beta.rows, 1, fun _ _ => 0⟩⟩ := by
  have hi : unsupervisedInit files r args words docs = .ok [.topicsFromModel p, .etaZeros 1] := by
    simp [unsupervisedInit, h, asString, loadLda, hN, bind, Except.bind]
  rw [unsupervisedTrain, hi]
  exact unsupervised_eta hc args e _ (p.alpha, p.beta) (fun _ => rfl) hb

/-- **C84** (unsupervised, from scratch). -/
theorem C84_unsupervised_scratch (files : String → Option Params) (r : Random) (hc : ℕ) (args : Args) (e : ESpec)
    (words : ℕ) (docs : List (List ℕ)) (h : args.continue_ = none) (hd : docs ≠ [])
    (hl : ∀ d ∈ docs, d.length = words) (hw : 0 < words) (hK : args.topics ≠ 0) (h0 : ∀ k w, 0 ≤ r.draw k w)
    (hp : ∀ k, ∃ n : Fin words, r.draw k n ≠ 0) :
    ∃ l, unsupervisedTrain files r hc args e words docs = some (.ok l) ∧ Configured args e .classic l ∧
      l.params.alpha = ⟨args.topics, fun _ => 1 / args.topics⟩ ∧ AreTopics args.topics words l.params.beta := by
  by_cases hr : args.initializeRandom
  · obtain ⟨t1, t2⟩ := random_topics words args.topics r.draw h0 hp
    obtain ⟨l, a1, a2, a3⟩ := unsupervised_eta hc args e (.topicsRandom words args.topics r.draw)
      (randomTopics words args.topics r.draw) (fun _ => rfl) hK
    have hi : unsupervisedInit files r args words docs =
        .ok [.topicsRandom words args.topics r.draw, .etaZeros 1] := by
      simp [unsupervisedInit, h, hr]
    refine ⟨l, by rw [unsupervisedTrain, hi]; exact a1, a2, ?_, ?_⟩
    · rw [a3]; exact t1
    · rw [a3]; exact t2
  · obtain ⟨v, t0, t1, t2⟩ := seeded_topics words hw docs hd hl args.topics 30 r.pick
    have hrows : v.2.rows = args.topics := by obtain ⟨b, hb, -⟩ := t2; rw [hb]
    obtain ⟨l, a1, a2, a3⟩ := unsupervised_eta hc args e (.topicsSeeded docs args.topics 30 r.pick)
      v (fun b => by simp [call, t0]) (by rw [hrows]; exact hK)
    have hi : unsupervisedInit files r args words docs =
        .ok [.topicsSeeded docs args.topics 30 r.pick, .etaZeros 1] := by
      simp [unsupervisedInit, h, hr]
    refine ⟨l, by rw [unsupervisedTrain, hi]; exact a1, a2, ?_, ?_⟩
    · rw [a3]; exact t1
    · rw [a3]; exact t2

/-- **C84** (transform).  All three applications transform with the topics in the file `N`, the unsupervised
expectation step and no likelihood; the supervised ones also have its `eta`. -/
theorem C84_transform (withEta : Bool) (files : String → Option Params) (hc workers iterations : ℕ) (tolerance : ℝ)
    (N : String) (p : Params) (hN : files N = some p) (hb : p.beta.rows ≠ 0) :
    ∃ l, transformLda withEta files hc workers iterations tolerance N = some (.ok l) ∧ l.workers = workers ∧
      (∃ i, l.e = .leaf i (.classic iterations tolerance 0 0)) ∧ l.params.alpha = p.alpha ∧ l.params.beta = p.beta ∧
      (withEta = true → l.params.eta = p.eta) := by
  cases withEta with
  | true =>
    simp only [transformLda, loadLda, hN, if_true]
    refine ⟨_, runBuild_eq _ _ { setEStep { Builder.new hc 0 with workers := workers }
      (.classic iterations tolerance 0 0) with params := p } rfl hb (Or.inr ⟨rfl, rfl⟩), rfl, ⟨_, rfl⟩, rfl, rfl,
      fun _ => rfl⟩
  | false =>
    simp only [transformLda, loadLda, hN, Bool.false_eq_true, if_false]
    refine ⟨_, runBuild_eq _ _ { setEStep { Builder.new hc 0 with workers := workers }
      (.classic iterations tolerance 0 0) with params := ⟨p.alpha, p.beta, .empty⟩ } rfl hb (Or.inr ⟨rfl, rfl⟩), rfl,
      ⟨_, rfl⟩, rfl, rfl, fun h => absurd h (by simp)⟩

/-! ### Examples -/

/-- The command line `slda train --topics=2 data model`. -/
def someArgs : Args := ⟨20, 1, 2, none, none, false⟩

/-- The hypotheses of `C84_scratch` can hold. -/
example (files : String → Option Params) (e : ESpec) (m : MSpec) :
    ∃ l c, supervisedTrain files ⟨fun _ _ => 0, fun _ _ => 1⟩ 4 someArgs e m 3 [[1, 0, 2], [0, 3, 0]] [0, 2] =
        some (.ok l) ∧ IsClasses [0, 2] c ∧ l.params.eta = ⟨2, c, fun _ _ => 0⟩ := by
  obtain ⟨l, c, h1, -, h2, -, -, h3⟩ := C84_scratch files ⟨fun _ _ => 0, fun _ _ => 1⟩ 4 someArgs e m 3
    [[1, 0, 2], [0, 3, 0]] [0, 2] rfl rfl (by simp) (by simp) (by simp) (by norm_num) (by simp [someArgs])
    (by simp) (fun _ => ⟨0, by simp⟩)
  exact ⟨l, c, h1, h2, h3⟩

/-- The hypotheses of `C67_fails` can hold, with a model that could have been continued from. -/
example (e : ESpec) (m : MSpec) :
    supervisedTrain (fun _ => some oneTopic) ⟨fun _ _ => 0, fun _ _ => 1⟩ 4
      { someArgs with continueFromUnsupervised := some "model" } e m 1 [[1]] [0] = some (.error .notAString) :=
  C67_fails _ _ _ _ _ _ _ _ _ "model" rfl rfl

/-- The hypotheses of `C84_continue` can hold. -/
example (e : ESpec) (m : MSpec) :
    ∃ l, supervisedTrain (fun _ => some ⟨oneTopic.alpha, oneTopic.beta, ⟨1, 2, fun _ _ => 3⟩⟩)
      ⟨fun _ _ => 0, fun _ _ => 1⟩ 4 { someArgs with continue_ := some "model" } e m 1 [[1]] [0] = some (.ok l) ∧
      l.params = ⟨oneTopic.alpha, oneTopic.beta, ⟨1, 2, fun _ _ => 3⟩⟩ := by
  obtain ⟨l, h1, -, h2⟩ := C84_continue (fun _ => some ⟨oneTopic.alpha, oneTopic.beta, ⟨1, 2, fun _ _ => 3⟩⟩)
    ⟨fun _ _ => 0, fun _ _ => 1⟩ 4 { someArgs with continue_ := some "model" } e m 1 [[1]] [0] "model" rfl _ rfl
    (by simp [oneTopic]) (by simp)
  exact ⟨l, h1, h2⟩

end Verif.Apps
