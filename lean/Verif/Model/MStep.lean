import Verif.Model.Optim

/-
Model of the maximisation steps, src/ldaplusplus/em/*MStep.cpp.

Each step has a state (its buffers), `doc_m_step` and `m_step`.  Arithmetic is over the real numbers; an
operation without a real result (division by zero, logarithm of zero) gives a value marked as not finite
and the computation goes on, as in IEEE arithmetic.  `none` as the result of a function is undefined
behaviour (access out of range, reading uninitialised memory, overflow of `int`).

The matrices of one run have fixed sizes: `K` topics, `V` words, `C` classes (the number of columns of
`eta`).  A buffer that has not been allocated yet (`b_.rows() == 0`) is `none`.
-/
namespace Verif.MStep

open MathUtils EStep Optim Finset

variable {K V C : ℕ}

/-- A document as the M steps see it: `get_words()` and `get_class()` (Document.hpp:26-62). -/
structure Doc (V : ℕ) where
  words : Vec V ℕ
  cls : ℤ

/-! ### UnsupervisedMStep -/

/-- The sufficient statistics `b_` (UnsupervisedMStep.hpp:78). -/
abbrev Buf (K V : ℕ) := Option (Mat K V ℝ)

/-- Allocation of `b_` if it has no rows, and `b_ += t` (UnsupervisedMStep.cpp:32-36). -/
def Buf.add (b : Buf K V) (t : Mat K V ℝ) : Buf K V :=
  some fun k n => (match b with
    | none => 0
    | some b => b k n) + t k n

/-- `phi.array().rowwise() * X` (UnsupervisedMStep.cpp:25-30). -/
def scaled (phi : Mat K V ℝ) (X : Vec V ℕ) : Mat K V ℝ := fun k n => phi k n * X n

/-- `UnsupervisedMStep::doc_m_step` (UnsupervisedMStep.cpp:19-37). -/
def uDoc (X : Vec V ℕ) (phi : Mat K V ℝ) (b : Buf K V) : Buf K V := b.add (scaled phi X)

/-- IEEE division of finite numbers (the divisions in UnsupervisedMStep.cpp:12-13). -/
noncomputable def quot (a s : ℝ) : Ieee ℝ :=
  if s ≠ 0 then .fin (a / s) else if a = 0 then .nan else if 0 < a then .pinf else .ninf

/-- What `m_step` assigns to `beta`: a matrix without rows and columns, or one of the size of the model
(UnsupervisedMStep.cpp:12-13). -/
inductive Beta (K V : ℕ) where
  | noRows
  | matrix (m : Mat K V (Ieee ℝ))

/-- `b_.array().colwise() / b_.array().rowwise().sum()` (UnsupervisedMStep.cpp:12-13). -/
noncomputable def uBeta : Buf K V → Beta K V
  | none => .noRows
  | some b => .matrix fun k n => quot (b k n) (∑ n, b k n)

/-- `b_.fill(0)` (UnsupervisedMStep.cpp:15). -/
def Buf.clear (b : Buf K V) : Buf K V := b.map fun _ _ _ => 0

/-- `UnsupervisedMStep::m_step` (UnsupervisedMStep.cpp:8-16). -/
noncomputable def uM (b : Buf K V) : Beta K V × Buf K V := (uBeta b, b.clear)

/-- The topics as numbers, if all entries are finite and the size is right (a property of what
UnsupervisedMStep.cpp:12-13 assigns). -/
def Beta.IsReal (b : Beta K V) (m : Mat K V ℝ) : Prop := b = .matrix fun k n => .fin (m k n)

/-! ### FastSupervisedMStep -/

/-- Resizing a vector or the columns of a matrix, keeping the elements (`conservativeResize`,
`std::vector::resize`).  `none` is an element that has not been assigned (FastSupervisedMStep.cpp:34-40
and 67-68, SupervisedMStep.cpp:39-48 and 78-80). -/
def resize {α : Type} (l : List (Option α)) (n : ℕ) : List (Option α) :=
  l.take n ++ List.replicate (n - l.length) none

/-- Assignment to an element (FastSupervisedMStep.cpp:42-50, SupervisedMStep.cpp:51-60). -/
def setAt {α : Type} (l : List (Option α)) (i : ℕ) (v : α) : Option (List (Option α)) :=
  if i < l.length then some (l.set i (some v)) else none

/-- All elements: undefined if one has not been assigned (FastSupervisedMStep.cpp:73,
SupervisedMStep.cpp:85). -/
def readAll {α : Type} : List (Option α) → Option (List α)
  | [] => some []
  | none :: _ => none
  | some a :: l => (readAll l).map (a :: ·)

/-- The members of a `FastSupervisedMStep` (FastSupervisedMStep.hpp:107-109): the columns of
`expected_z_bar_` are a list. -/
structure FastState (K V : ℕ) where
  b : Buf K V
  docs : ℕ
  zbar : List (Option (Vec K ℝ))
  y : List (Option ℤ)

/-- After construction (FastSupervisedMStep.hpp:58-66). -/
def FastState.init : FastState K V := ⟨none, 0, [], []⟩

/-- `gamma - alpha`, divided by its sum unless that is zero (FastSupervisedMStep.cpp:44-50). -/
noncomputable def fastZbar (gamma alpha : Vec K ℝ) : Vec K ℝ :=
  let s := ∑ k, (gamma k - alpha k)
  if s ≠ 0 then fun k => (gamma k - alpha k) / s else fun k => gamma k - alpha k

/-- `FastSupervisedMStep::doc_m_step` (FastSupervisedMStep.cpp:15-53). -/
noncomputable def fastDoc (alpha : Vec K ℝ) (d : Doc V) (vp : VP K V) (s : FastState K V) :
    Option (FastState K V) :=
  let b := uDoc d.words vp.phi s.b
  let y := if s.zbar.length ≤ s.docs then resize s.y (s.docs + 1) else s.y
  let z := if s.zbar.length ≤ s.docs then resize s.zbar (s.docs + 1) else s.zbar
  (setAt y s.docs d.cls).bind fun y =>
  (setAt z s.docs (fastZbar vp.gamma alpha)).map fun z =>
  ⟨b, s.docs + 1, z, y⟩

/-- The constructor arguments of the supervised M steps (FastSupervisedMStep.hpp:58-66). -/
structure SupCfg where
  iterations : ℕ
  tolerance : ℝ
  penalty : ℝ

open Classical in
/-- `minimizer.minimize(mlr, eta)` with the default Armijo search
(FastSupervisedMStep.cpp:74-94): the new `eta` and the MaximizationProgressEvents.  `none` if it does
not terminate or is undefined. -/
noncomputable def descend (cfg : SupCfg) (pr : Problem K C) (eta : Mat K C ℝ) :
    Option (Mat K C ℝ × List ℝ) :=
  if h : ∃ r : Mat K C ℝ × (Option ℝ × List ℝ), Minimize (ArmijoSearch (1 / 1000) (1 / 2)) pr
      (mStepProgress cfg.iterations cfg.tolerance) eta (none, []) r.1 r.2
  then some (h.choose.1, h.choose.2.2) else none

/-- What `m_step` leaves in the model, and the values of its events (`none`: not finite)
(FastSupervisedMStep.cpp:56-95). -/
structure MOut (K V C : ℕ) where
  beta : Beta K V
  eta : Mat K C ℝ
  events : List (Option ℝ)

/-- `FastSupervisedMStep::m_step` (FastSupervisedMStep.cpp:56-95). -/
noncomputable def fastM (cfg : SupCfg) (eta : Mat K C ℝ) (s : FastState K V) :
    Option (MOut K V C × FastState K V) :=
  let y := resize s.y s.docs
  let z := resize s.zbar s.docs
  (readAll z).bind fun zs =>
  (readAll y).bind fun ys =>
  (logisticDefault C zs ys cfg.penalty).bind fun pr =>
  (descend cfg pr eta).map fun r =>
  (⟨(uM s.b).1, r.1, r.2.map some⟩, ⟨(uM s.b).2, 0, z, y⟩)

/-! ### SemiSupervisedMStep -/

/-- `SemiSupervisedMStep::doc_m_step` (SemiSupervisedMStep.cpp:8-19); `m_step` is inherited from
`FastSupervisedMStep`. -/
noncomputable def semiDoc (alpha : Vec K ℝ) (d : Doc V) (vp : VP K V) (s : FastState K V) :
    Option (FastState K V) :=
  if d.cls < 0 then some { s with b := uDoc d.words vp.phi s.b } else fastDoc alpha d vp s

/-! ### SupervisedMStep -/

/-- The members of a `SupervisedMStep` (SupervisedMStep.hpp:102-106).  An element that was assigned is
`some none` if it has entries that are not finite. -/
structure SupState (K V : ℕ) where
  b : Buf K V
  docs : ℕ
  zbar : List (Option (Option (Vec K ℝ)))
  var : List (Option (Option (Mat K K ℝ)))
  y : List (Option ℤ)

/-- After construction (SupervisedMStep.hpp:53-61). -/
def SupState.init : SupState K V := ⟨none, 0, [], [], []⟩

/-- `(gamma - alpha) / N` (SupervisedMStep.cpp:54-55). -/
noncomputable def supZbar (N : ℕ) (gamma alpha : Vec K ℝ) : Option (Vec K ℝ) :=
  if N = 0 then none else some fun k => (gamma k - alpha k) / N

/-- `phi_scaled * phi_scaled^T * (1.0 / (N * N))` (SupervisedMStep.cpp:58-60). -/
noncomputable def supVar (N : ℕ) (X : Vec V ℕ) (phi : Mat K V ℝ) : Option (Mat K K ℝ) :=
  if N = 0 then none
  else some fun k l => (∑ n, scaled phi X k n * scaled phi X l n) * (1 / ((N : ℝ) * N))

/-- `SupervisedMStep::doc_m_step` (SupervisedMStep.cpp:14-63).  `N * N` is a product of `int`s. -/
noncomputable def supDoc (alpha : Vec K ℝ) (d : Doc V) (vp : VP K V) (s : SupState K V) :
    Option (SupState K V) :=
  let N := numWords d.words
  let b := uDoc d.words vp.phi s.b
  let grow := s.zbar.length ≤ s.docs
  let y := if grow then resize s.y (s.docs + 1) else s.y
  let z := if grow then resize s.zbar (s.docs + 1) else s.zbar
  let v := if grow then resize s.var (s.docs + 1) else s.var
  if N * N > 2147483647 then none
  else
    (setAt y s.docs d.cls).bind fun y =>
    (setAt z s.docs (supZbar N vp.gamma alpha)).bind fun z =>
    (setAt v s.docs (supVar N d.words vp.phi)).map fun v =>
    ⟨b, s.docs + 1, z, v, y⟩

/-- Every label is a column of `eta` (indices at MultinomialLogisticRegression.cpp:47 and 69). -/
def LabelsOk (C : ℕ) (y : List ℤ) : Prop := ∀ a ∈ y, 0 ≤ a ∧ a < (C : ℤ)

instance (C : ℕ) (y : List ℤ) : Decidable (LabelsOk C y) := by unfold LabelsOk; infer_instance

/-- The minimisation in `SupervisedMStep::m_step` (SupervisedMStep.cpp:84-111).  With an entry that is
not finite the first value is NaN, which is reported, and the callback stops the descent (line 102:
the comparison is false). -/
noncomputable def supDescend (cfg : SupCfg) (z : List (Option (Vec K ℝ))) (v : List (Option (Mat K K ℝ)))
    (y : List ℤ) (eta : Mat K C ℝ) : Option (Mat K C ℝ × List (Option ℝ)) :=
  match readAll z, readAll v with
  | some zs, some vs =>
    (secondOrderDefault C zs vs y cfg.penalty).bind fun pr =>
    (descend cfg pr eta).map fun r => (r.1, r.2.map some)
  | _, _ => if LabelsOk C y ∧ (defaultWeights y).isSome then some (eta, [none]) else none

/-- `SupervisedMStep::m_step` (SupervisedMStep.cpp:66-112). -/
noncomputable def supM (cfg : SupCfg) (eta : Mat K C ℝ) (s : SupState K V) :
    Option (MOut K V C × SupState K V) :=
  let y := resize s.y s.docs
  let z := resize s.zbar s.docs
  let v := resize s.var s.docs
  (readAll z).bind fun zs =>
  (readAll v).bind fun vs =>
  (readAll y).bind fun ys =>
  (supDescend cfg zs vs ys eta).map fun r =>
  (⟨(uM s.b).1, r.1, r.2⟩, ⟨(uM s.b).2, 0, z, v, y⟩)

/-! ### MultinomialSupervisedMStep, CorrespondenceSupervisedMStep -/

/-- The members `b_`, `h_` and `log_py_` (MultinomialSupervisedMStep.hpp:38-44,
CorrespondenceSupervisedMStep.hpp:67-73).  `log_py_` is not initialised by the constructor (`none`);
`some none` is a value that is not finite. -/
structure MultState (K V C : ℕ) where
  bufs : Option (Mat K V ℝ × Mat K C ℝ)
  logpy : Option (Option ℝ)

/-- After construction (MultinomialSupervisedMStep.hpp:17-19). -/
def MultState.init : MultState K V C := ⟨none, none⟩

/-- `phi_scaled_sum_.transpose() * eta.col(y).array().log()` (MultinomialSupervisedMStep.cpp:69,
CorrespondenceSupervisedMStep.cpp:77). -/
noncomputable def expectedLog (sum ey : Vec K ℝ) : Option ℝ :=
  (mapOpt logc ey).map fun le => ∑ k, sum k * le k

/-- `doc_m_step` given the scaled `phi` (MultinomialSupervisedMStep.cpp:47-69 and
CorrespondenceSupervisedMStep.cpp:49-77). -/
noncomputable def multAdd (eta : Mat K C ℝ) (cls : ℤ) (t : Mat K V ℝ) (s : MultState K V C) :
    Option (MultState K V C) :=
  (colAt eta cls).map fun ey =>
  let sum : Vec K ℝ := fun k => ∑ n, t k n
  let old : (Mat K V ℝ × Mat K C ℝ) × Option (Option ℝ) := match s.bufs with
    | none => ((fun _ _ => 0, fun _ _ => 0), some (some 0))
    | some p => (p, s.logpy)
  { bufs := some (fun k n => old.1.1 k n + t k n,
      fun k c => old.1.2 k c + if (c : ℤ) = cls then sum k else 0)
    logpy := old.2.map fun (v : Option ℝ) => v.bind fun v => (expectedLog sum ey).map fun e => v + e }

/-- `MultinomialSupervisedMStep::doc_m_step` (MultinomialSupervisedMStep.cpp:32-71). -/
noncomputable def multDoc (eta : Mat K C ℝ) (d : Doc V) (phi : Mat K V ℝ) (s : MultState K V C) :
    Option (MultState K V C) :=
  multAdd eta d.cls (scaled phi d.words) s

/-- `CorrespondenceSupervisedMStep::doc_m_step` (CorrespondenceSupervisedMStep.cpp:32-78). -/
noncomputable def corrDoc (eta : Mat K C ℝ) (d : Doc V) (phi : Mat K V ℝ) (tau : Vec V ℝ)
    (s : MultState K V C) : Option (MultState K V C) :=
  multAdd eta d.cls (fun k n => phi k n * (d.words n * tau n)) s

/-- What `m_step` assigns to `beta` and `eta` (`none`: matrices without rows), and the value of its
event (`none`: uninitialised, `some none`: not finite) (MultinomialSupervisedMStep.cpp:10-29). -/
structure MultOut (K V C : ℕ) where
  params : Option (Mat K V ℝ × Mat K C ℝ)
  event : Option (Option ℝ)

/-- `MultinomialSupervisedMStep::m_step` (MultinomialSupervisedMStep.cpp:10-29) and
`CorrespondenceSupervisedMStep::m_step` (CorrespondenceSupervisedMStep.cpp:10-29), which are the same. -/
noncomputable def multM (mu : ℝ) (s : MultState K V C) : MultOut K V C × MultState K V C :=
  ({ params := s.bufs.map fun p => (normalizeRows p.1, normalizeRows fun k c => p.2 k c + mu - 1)
     event := s.logpy },
   { bufs := s.bufs.map fun _ => (fun _ _ => 0, fun _ _ => 0), logpy := some (some 0) })

/-! ### FastOnlineSupervisedMStep -/

/-- The constructor arguments (FastOnlineSupervisedMStep.cpp:12-45).  The number of classes is the
length of the class weights; it must be the number of columns of `eta`, which is assumed here. -/
structure OnlineCfg (C : ℕ) where
  classWeights : Vec C ℝ
  penalty : ℝ
  minibatch : ℕ
  momentum : ℝ
  rate : ℝ
  betaWeight : ℝ

/-- The buffers allocated by the first document (FastOnlineSupervisedMStep.hpp:120-125).  `none` is a
column or a matrix with an entry that is not finite. -/
structure OnlineBufs (K V C : ℕ) where
  b : Mat K V ℝ
  zbar : List (Option (Vec K ℝ))
  y : List ℤ
  velocity : Option (Mat K C ℝ)

/-- The members of the step, and the model parameters it changes (`none`: not finite)
(FastOnlineSupervisedMStep.hpp:107-128). -/
structure OnlineState (K V C : ℕ) where
  bufs : Option (OnlineBufs K V C)
  seen : ℕ
  beta : Option (Mat K V ℝ)
  eta : Option (Mat K C ℝ)

/-- The initial buffers (FastOnlineSupervisedMStep.cpp:63-70). -/
def OnlineBufs.init (cfg : OnlineCfg C) : OnlineBufs K V C :=
  ⟨fun _ _ => 0, List.replicate cfg.minibatch (some fun _ => 0), List.replicate cfg.minibatch 0,
    some fun _ _ => 0⟩

open Classical in
/-- The update of the topics (FastOnlineSupervisedMStep.cpp:106-109). -/
noncomputable def onlineBeta (w : ℝ) (beta b : Mat K V ℝ) : Option (Mat K V ℝ) :=
  if ∃ k, (∑ n, b k n) = 0 then none
  else some fun k n => w * beta k n + (1 - w) * (b k n / ∑ n, b k n)

/-- `gamma - alpha` divided by its sum (FastOnlineSupervisedMStep.cpp:76-77). -/
noncomputable def onlineZbar (gamma alpha : Vec K ℝ) : Option (Vec K ℝ) :=
  if (∑ k, (gamma k - alpha k)) = 0 then none
  else some fun k => (gamma k - alpha k) / ∑ k, (gamma k - alpha k)

/-- The second part of `m_step` (FastOnlineSupervisedMStep.cpp:98-123): the new velocity and `eta`, and
the value of the event.  The weights of the classes are those the `MultinomialLogisticRegression`
computes itself (lines 112-116). -/
noncomputable def onlineEta (cfg : OnlineCfg C) (z : List (Option (Vec K ℝ))) (y : List ℤ)
    (velocity eta : Option (Mat K C ℝ)) :
    Option (Option (Mat K C ℝ) × Option (Mat K C ℝ) × Option ℝ) :=
  match readAll z, velocity, eta with
  | some zs, some vel, some e =>
    (logisticDefault C zs y cfg.penalty).bind fun pr =>
    (pr.gradient e).bind fun g =>
    let vel' : Mat K C ℝ := fun k c => cfg.momentum * vel k c - cfg.rate * g k c
    let e' : Mat K C ℝ := fun k c => e k c + vel' k c
    (pr.value e').map fun v => (some vel', some e', some (-v))
  | _, _, _ => if LabelsOk C y ∧ (defaultWeights y).isSome then some (none, none, none) else none

/-- `FastOnlineSupervisedMStep::m_step` (FastOnlineSupervisedMStep.cpp:89-124): the state after it and
the values of its events. -/
noncomputable def onlineM (cfg : OnlineCfg C) (s : OnlineState K V C) :
    Option (OnlineState K V C × List (Option ℝ)) :=
  if s.seen < cfg.minibatch then some (s, [])
  else
    match s.bufs with
    | none => none
    | some p =>
      (onlineEta cfg p.zbar p.y p.velocity s.eta).map fun r =>
      ({ bufs := some { p with velocity := r.1 }, seen := 0,
         beta := s.beta.bind fun be => onlineBeta cfg.betaWeight be p.b, eta := r.2.1 }, [r.2.2])

/-- `FastOnlineSupervisedMStep::doc_m_step` (FastOnlineSupervisedMStep.cpp:48-86). -/
noncomputable def onlineDoc (cfg : OnlineCfg C) (alpha : Vec K ℝ) (d : Doc V) (vp : VP K V)
    (s : OnlineState K V C) : Option (OnlineState K V C × List (Option ℝ)) :=
  let p := s.bufs.getD (OnlineBufs.init cfg)
  if s.seen < p.zbar.length ∧ s.seen < p.y.length then
    let p' : OnlineBufs K V C := { p with
      b := fun k n => p.b k n + scaled vp.phi d.words k n
      zbar := p.zbar.set s.seen (onlineZbar vp.gamma alpha)
      y := p.y.set s.seen d.cls }
    let s' := { s with bufs := some p', seen := s.seen + 1 }
    if cfg.minibatch ≤ s.seen + 1 then onlineM cfg s' else some (s', [])
  else none

end Verif.MStep
