import Verif.Props.Renumber

/-! Property C143: topics that are equal at the start stay equal. -/
namespace Verif.Train

open MathUtils EStep MStep Optim Pool

variable {K V C : ℕ} {T : Type}

/-- The topics `a` and `b` have the same prior, the same words and the same class parameters. -/
def Params.Twins (q : Params K V C) (a b : Fin K) : Prop :=
  q.alpha a = q.alpha b ∧ (∀ m, q.beta = .matrix m → ∀ n, m a n = m b n) ∧ ∀ c, q.eta a c = q.eta b c

/-- The same for the multinomial and correspondence models. -/
def TwinsMult (q : MultParams K V C) (a b : Fin K) : Prop :=
  q.1 a = q.1 b ∧ ∀ p, q.2 = some p → (∀ n, p.1 a n = p.1 b n) ∧ ∀ c, p.2 a c = p.2 b c

/-- The same for the results of an E step. -/
def VP.Twins (r : VP K V) (a b : Fin K) : Prop := r.gamma a = r.gamma b ∧ ∀ n, r.phi a n = r.phi b n

theorem swap_eq {A : Type} (f : Fin K → A) (a b : Fin K) : (fun k => f (Equiv.swap a b k)) = f ↔ f a = f b := by
  constructor
  · intro h
    have := congrFun h b
    simpa using this
  · intro h
    funext k
    rcases eq_or_ne k a with rfl | ha
    · rw [Equiv.swap_apply_left, h]
    · rcases eq_or_ne k b with rfl | hb
      · rw [Equiv.swap_apply_right, h]
      · rw [Equiv.swap_apply_of_ne_of_ne ha hb]

theorem swap_rows {c : ℕ} {A : Type} (m : Mat K c A) (a b : Fin K) : rows (Equiv.swap a b) m = m ↔ ∀ j, m a j = m b j := by
  have h := swap_eq m a b
  exact h.trans funext_iff

theorem Params.twins_iff {q : Params K V C} {a b : Fin K} :
    q.both (Equiv.swap a b) (Equiv.refl _) = q ↔ q.Twins a b := by
  obtain ⟨alpha, beta, eta⟩ := q
  simp only [Params.both, Params.Twins, Params.mk.injEq]
  refine and_congr (swap_eq alpha a b) (and_congr ?_ (swap_rows eta a b))
  cases beta with
  | noRows => simp [Beta.both]
  | matrix m =>
    simp only [Beta.both, Beta.matrix.injEq]
    constructor
    · rintro h m' rfl
      exact (swap_rows m a b).1 h
    · intro h
      exact (swap_rows m a b).2 (h m rfl)

theorem twinsMult_iff {q : MultParams K V C} {a b : Fin K} :
    bothMult (Equiv.swap a b) (Equiv.refl _) q = q ↔ TwinsMult q a b := by
  obtain ⟨alpha, p⟩ := q
  simp only [bothMult, TwinsMult, Prod.mk.injEq]
  refine and_congr (swap_eq alpha a b) ?_
  cases p with
  | none => simp
  | some p =>
    simp only [Option.map_some, Option.some.injEq]
    constructor
    · rintro h p' rfl
      exact ⟨(swap_rows p.1 a b).1 (congrArg Prod.fst h), (swap_rows p.2 a b).1 (congrArg Prod.snd h)⟩
    · intro h
      exact Prod.ext ((swap_rows p.1 a b).2 (h p rfl).1) ((swap_rows p.2 a b).2 (h p rfl).2)

theorem VP.twins_iff {r : VP K V} {a b : Fin K} : VP.both (Equiv.swap a b) (Equiv.refl _) r = r ↔ VP.Twins r a b := by
  obtain ⟨phi, gamma⟩ := r
  simp only [VP.both, VP.Twins, VP.mk.injEq]
  exact and_comm.trans (and_congr (swap_eq gamma a b) (swap_rows phi a b))

/-- What training does to a model that looks the same in another numbering. -/
theorem fixed_fit {Q R S : Type} {b : BatchStep Q R S} {n : ℕ} {eval : Q × T → ℕ → R} {next : T → T} {s0 : S} {Tq : Q → Q}
    (h : FitsAlike b b n eval eval next s0 s0 Tq) {q : Q} (hq : Tq q = q) {t : T} {W : ℕ} {orders : List (ℕ → ℕ)}
    (ho : ∀ p ∈ orders, ((List.range n).map p).Perm (List.range n)) {m : Q × T × Option S} {l : Left R}
    {logs : List (List (Obs R))} (hc : Calls (fitCalls b next eval W n orders) .empty (q, t, some s0) l m logs) :
    Tq m.1 = m.1 :=
  (h q t W W orders orders m l logs m l logs rfl ho ho hc (by rw [hq]; exact hc)).1.symm

/-- Training keeps what `P` says: for every schedule, number of workers, shuffle and number of iterations. -/
def FitKeeps {Q R S : Type} (b : BatchStep Q R S) (n : ℕ) (eval : Q × T → ℕ → R) (next : T → T) (s0 : S) (P : Q → Prop) : Prop :=
  ∀ (q : Q) (t : T) (W : ℕ) (orders : List (ℕ → ℕ)) (m : Q × T × Option S) (l : Left R) (logs : List (List (Obs R))),
    (∀ p ∈ orders, ((List.range n).map p).Perm (List.range n)) →
    Calls (fitCalls b next eval W n orders) .empty (q, t, some s0) l m logs → P q → P m.1

variable {P : Prims} {cfg : EStep.Cfg} {corpus : ℕ → Doc V} {n : ℕ} {a b : Fin K}

/-- **C143**: LDA. -/
theorem C143_lda {any : VP K V} (hany : VP.Twins any a b) (next : T → T) :
    FitKeeps (unsupervised corpus) n (libResults (C := C) (fun _ X _ m => unsupervisedRun P cfg X m) any corpus) next none
      (Params.Twins · a b) := by
  intro q t W orders m l logs ho hc hq
  have h := C116_lda (C := C) (Equiv.swap a b) (Equiv.refl (Fin V)) P cfg corpus n any next
  rw [VP.twins_iff.2 hany] at h
  exact Params.twins_iff.1 (fixed_fit h (Params.twins_iff.2 hq) ho hc)

/-- **C143**: fast supervised LDA. -/
theorem C143_flda {mcfg : SupCfg} {any : VP K V} (hany : VP.Twins any a b) :
    FitKeeps (fastSupervised mcfg corpus) n
      (libResults (C := C) (fun (t : EStep.FastState) X y m => fastRun P cfg t.weight X y m) any corpus)
      EStep.FastState.eStep .init (Params.Twins · a b) := by
  intro q t W orders m l logs ho hc hq
  have h := C116_flda (C := C) (Equiv.swap a b) (Equiv.refl (Fin V)) P cfg mcfg corpus n any
  rw [VP.twins_iff.2 hany] at h
  exact Params.twins_iff.1 (fixed_fit h (Params.twins_iff.2 hq) ho hc)

/-- **C143**: supervised LDA. -/
theorem C143_slda {mcfg : SupCfg} {fp : ℕ} {any : VP K V} (hany : VP.Twins any a b) (next : T → T) :
    FitKeeps (supervised mcfg corpus) n
      (libResults (C := C) (fun _ X y m => (supervisedRun P cfg fp X y m).map Prod.fst) any corpus) next .init
      (Params.Twins · a b) := by
  intro q t W orders m l logs ho hc hq
  have h := C116_slda_partial (C := C) (Equiv.swap a b) P cfg mcfg fp corpus n any next
  rw [VP.twins_iff.2 hany] at h
  exact Params.twins_iff.1 (fixed_fit h (Params.twins_iff.2 hq) ho hc)

/-- **C143**: multinomial supervised LDA. -/
theorem C143_multinomial {mu ew : ℝ} {any : VP K V} (hany : VP.Twins any a b) (next : T → T) :
    FitKeeps (multinomial mu corpus) n (libResultsMult (C := C) (fun _ X y m => multinomialRun P cfg ew X y m) any corpus)
      next .init (TwinsMult · a b) := by
  intro q t W orders m l logs ho hc hq
  have h := C116_multinomial (C := C) (Equiv.swap a b) (Equiv.refl (Fin V)) P cfg mu ew corpus n any next
  rw [VP.twins_iff.2 hany] at h
  exact twinsMult_iff.1 (fixed_fit h (twinsMult_iff.2 hq) ho hc)

/-- **C143**: correspondence LDA. -/
theorem C143_correspondence {mu : ℝ} {any : VP K V × Vec V ℝ} (hany : VP.Twins any.1 a b) (next : T → T) :
    FitKeeps (correspondence mu corpus) n (libResultsMult (C := C) (fun _ X y m => correspondenceRun P cfg X y m) any corpus)
      next .init (TwinsMult · a b) := by
  intro q t W orders m l logs ho hc hq
  have h := C116_correspondence (C := C) (Equiv.swap a b) (Equiv.refl (Fin V)) P cfg mu corpus n any next
  rw [VP.twins_iff.2 hany] at h
  exact twinsMult_iff.1 (fixed_fit h (twinsMult_iff.2 hq) ho hc)

/-- **C143**: the online step, for every history of calls with results that do not tell the topics apart. -/
theorem C143_online (ocfg : OnlineCfg C) {beta : Mat K V ℝ} {eta : Mat K C ℝ} {h : List (Call (DocArg K V) Unit)}
    (hb : ∀ n, beta a n = beta b n) (he : ∀ c, eta a c = eta b c)
    (hh : ∀ d ∈ given h, d.1 a = d.1 b ∧ VP.Twins d.2.2 a b) {s : OnlineState K V C} {ev : List (Option ℝ)}
    (hs : onlineHistory ocfg beta eta h = some (s, ev)) :
    (∀ m, s.beta = some m → ∀ n, m a n = m b n) ∧ ∀ m, s.eta = some m → ∀ c, m a c = m b c := by
  have h1 := C116_online (σ := Equiv.swap a b) (τ := Equiv.refl (Fin V)) ocfg beta eta h
  have e1 : both (Equiv.swap a b) (Equiv.refl (Fin V)) beta = beta := (swap_rows beta a b).2 hb
  have e2 : h.map (bothCall (σ := Equiv.swap a b) (τ := Equiv.refl (Fin V))) = h := by
    clear hs h1
    induction h with
    | nil => rfl
    | cons c h ih =>
      rw [List.map_cons]
      cases c with
      | doc d =>
        rw [ih fun d' hd => hh d' (by simp only [given, List.filterMap_cons]; exact List.mem_cons_of_mem _ hd)]
        have := hh d (by simp only [given, List.filterMap_cons]; exact List.mem_cons_self)
        obtain ⟨d1, d2, d3⟩ := d
        simp only [bothCall]
        rw [VP.twins_iff.2 this.2, show along (Equiv.swap a b) d1 = d1 from (swap_eq d1 a b).2 this.1]
        rfl
      | step u => rw [ih fun d' hd => hh d' hd]; rfl
  rw [e1, (swap_rows eta a b).2 he, e2, hs, Option.map_some] at h1
  have h2 : s = s.both (Equiv.swap a b) (Equiv.refl (Fin V)) := congrArg Prod.fst (Option.some.inj h1)
  refine ⟨fun m hm => ?_, fun m hm => ?_⟩
  · have h3 := congrArg OnlineState.beta h2
    simp only [OnlineState.both, hm, Option.map_some, Option.some.injEq] at h3
    exact (swap_rows m a b).1 h3.symm
  · have h3 := congrArg OnlineState.eta h2
    simp only [OnlineState.both, hm, Option.map_some, Option.some.injEq] at h3
    exact (swap_rows m a b).1 h3.symm

/-- A case of `C143_lda`: two equal topics, three documents, two iterations with two workers. -/
example (q : Params 2 4 1) (hq : q.Twins 0 1) : ∃ (m : Params 2 4 1 × Unit × Option (Buf 2 4)) (logs : List (List (Obs (VP 2 4)))),
    Calls (fitCalls (unsupervised threeDocs) id
      (libResults (fun _ X _ m => unsupervisedRun fastPrims demoCfg X m) ⟨fun _ _ => 0, fun _ => 0⟩ threeDocs) 2 3 [id, id]) .empty
      (q, (), some none) .empty m logs ∧ m.1.Twins 0 1 := by
  obtain ⟨m, logs, h⟩ := calls_exist (unsupervised threeDocs) id
    (libResults (fun _ X _ m => unsupervisedRun fastPrims demoCfg X m) ⟨fun _ _ => 0, fun _ => 0⟩ threeDocs) (W := 2) (by norm_num) 3
    [id, id] (q, (), some none)
  exact ⟨m, logs, h, C143_lda (a := 0) (b := 1) ⟨rfl, fun _ => rfl⟩ id q () 2 [id, id] m _ logs (by simp) h hq⟩

/-- A model with two equal topics. -/
example : (⟨fun _ => 1 / 2, .matrix fun _ _ => .fin (1 / 4), fun _ _ => 0⟩ : Params 2 4 1).Twins 0 1 :=
  ⟨rfl, fun m hm n => by cases hm; rfl, fun _ => rfl⟩

end Verif.Train
