import Verif.Lemmas.ObjClass
/-!
# One step of the loader without its state

`Sat m Q`: from every good state, whatever `m` returns or raises satisfies `Q`, and the state stays good.  `StepSem P h v t o` lists
the outcomes `o` of calling handler `h` on `v` and `t`, when the outcomes of the handler calls it makes are described by `P`.
The caches appear in it only as nondeterminism.
-/

namespace TL

/-- The loader knows `n` as the name of `t`. -/
def Bound (s : LState) (n : String) (t : Ty) : Prop := ∃ fr, s.frefs = some fr ∧ aget fr n = some t

/-- The handler is in the list of handlers. -/
def Installed (C : Config) (h : Handler) : Prop := ∃ c, (c, h) ∈ C.handlers

theorem pick_installed {W : World} {C : Config} {t : Ty} {h : Handler} (hp : pick W C t = .ok h) : Installed C h := by
  unfold pick at hp
  split at hp
  · cases hp
  · split at hp
    · rename_i p hq
      cases hp
      exact ⟨p.1, List.mem_of_getElem? hq⟩
    · cases hp

/-- With the default handlers no user-supplied one is in the list. -/
theorem not_installed {C : Config} (hd : C.Default) (i : Nat) : ¬ Installed C (.custom i) := by
  rintro ⟨c, hc⟩
  rw [hd] at hc
  simp [defaultHandlers] at hc

/-- What is known about forward references: the types a name can denote, and the names that are known all along, with their meaning. -/
structure Names where
  can : String → Ty → Prop
  has : String → Ty → Prop

instance : CoeFun Names (fun _ => String → Ty → Prop) := ⟨Names.can⟩

/-- Only the possible meanings are known. -/
@[coe, reducible] def Names.of (f : String → Ty → Prop) : Names := ⟨f, fun _ _ => False⟩
instance : Coe (String → Ty → Prop) Names := ⟨Names.of⟩

/-- `G` is a set of types closed under the types met while loading, `F` contains the possible meanings of forward references. -/
structure Closed (W : World) (C : Config) (G : Ty → Prop) (F : Names) : Prop where
  coll : ∀ k t, G (.coll k t) → G t
  tuple : ∀ ts, G (.tuple ts) → ∀ u ∈ ts, G u
  dictKey : ∀ k v, G (.dict k v) → G k
  dictVal : ∀ k v, G (.dict k v) → G v
  union : ∀ ts, G (.union ts) → ∀ u ∈ ts, G u
  newtype : ∀ n t, G (.newtype n t) → G t
  enum : ∀ e, G (.enum e) → ∀ u ∈ (W.enm e).hints, G u
  field : ∀ c, G (.obj c) → ∀ f ∈ (W.cls c).fields, ∀ t, FieldTy (W.cls c).kind f t → G t
  custom : ∀ i, Installed C (.custom i) → ∀ v t, G t → ∀ x u, (W.customLoad i v t).Asks x u → G u
  names : ∀ n t, G t → W.tyName t = some n → F n t
  bound : ∀ n t, F n t → G t

theorem Closed.all (W : World) (C : Config) : Closed W C (fun _ => True) (.of (fun _ _ => True)) := by
  constructor <;> intros <;> trivial

/-- The caches are coherent, the known names are in `F`, and those that `F` says are known are. -/
structure Good (W : World) (C : Config) (F : Names) (s : LState) : Prop where
  coh : Coh W C s
  bound : ∀ n t, Bound s n t → F n t
  known : ∀ n t, F.has n t → Bound s n t

variable {W : World} {C : Config} {G : Ty → Prop} {F : Names} {α β : Type}

/-- From good states, every outcome of `m` satisfies `Q` and leaves a good state. -/
def Sat (W : World) (C : Config) (F : Names) (m : L α) (Q : Except Exc α → Prop) : Prop :=
  ∀ s, Good W C F s → Post m s (fun a s' => Good W C F s' ∧ Q (.ok a)) (fun e s' => Good W C F s' ∧ Q (.error e))

theorem Sat.pure {a : α} {Q : Except Exc α → Prop} (h : Q (.ok a)) : Sat W C F (pure a : L α) Q := fun _ hs => ⟨hs, h⟩
theorem Sat.throw {e : Exc} {Q : Except Exc α → Prop} (h : Q (.error e)) : Sat W C F (M.throw e : L α) Q := fun _ hs => ⟨hs, h⟩
theorem Sat.lift {x : Except Exc α} {Q : Except Exc α → Prop} (h : Q x) : Sat W C F (M.lift x : L α) Q := by
  cases x with
  | ok a => exact Sat.pure h
  | error e => exact Sat.throw h
theorem Sat.mono {m : L α} {Q Q' : Except Exc α → Prop} (h : Sat W C F m Q) (hq : ∀ o, Q o → Q' o) : Sat W C F m Q' :=
  fun s hs => (h s hs).mono (fun _ _ h => ⟨h.1, hq _ h.2⟩) (fun _ _ h => ⟨h.1, hq _ h.2⟩)
theorem Sat.bind {m : L α} {f : α → L β} {Q : Except Exc α → Prop} {Q' : Except Exc β → Prop} (hm : Sat W C F m Q)
    (hf : ∀ a, Q (.ok a) → Sat W C F (f a) Q') (he : ∀ e, Q (.error e) → Q' (.error e)) : Sat W C F (m >>= f) Q' := by
  intro s hs
  rw [post_bind]
  exact (hm s hs).mono (fun a s' h => hf a h.2 s' h.1) (fun e s' h => ⟨h.1, he e h.2⟩)
theorem Sat.rescue {m : L α} {f : Exc → L α} {Q Q' : Except Exc α → Prop} (hm : Sat W C F m Q)
    (ho : ∀ a, Q (.ok a) → Q' (.ok a)) (hf : ∀ e, Q (.error e) → Sat W C F (f e) Q') : Sat W C F (M.rescue m f) Q' := by
  intro s hs
  rw [post_rescue]
  exact (hm s hs).mono (fun a s' h => ⟨h.1, ho a h.2⟩) (fun e s' h => hf e h.2 s' h.1)
theorem Sat.handle {m : L α} {f : α → L β} {g : Exc → L β} {Q : Except Exc α → Prop} {Q' : Except Exc β → Prop}
    (hm : Sat W C F m Q) (hf : ∀ a, Q (.ok a) → Sat W C F (f a) Q') (hg : ∀ e, Q (.error e) → Sat W C F (g e) Q') :
    Sat W C F (M.handle m f g) Q' := by
  intro s hs
  rw [post_handle]
  exact (hm s hs).mono (fun a s' h => hf a h.2 s' h.1) (fun e s' h => hg e h.2 s' h.1)
/-- A computation that keeps good states good, whose outcomes are known. -/
theorem Sat.of_post {m : L α} {Q : Except Exc α → Prop} (h : ∀ s, Good W C F s → Post m s (fun a s' => (Ext W C s s' ∧ s'.frefs = s.frefs) ∧ Q (.ok a))
    (fun e s' => (Ext W C s s' ∧ s'.frefs = s.frefs) ∧ Q (.error e))) : Sat W C F m Q := by
  have key : ∀ s s', Good W C F s → Ext W C s s' → s'.frefs = s.frefs → Good W C F s' := fun s s' hs he hf =>
    ⟨hs.coh.ext he, fun n t ⟨fr, h1, h2⟩ => hs.bound n t ⟨fr, by rw [← hf]; exact h1, h2⟩,
      fun n t hn => by obtain ⟨fr, h1, h2⟩ := hs.known n t hn; exact ⟨fr, by rw [hf]; exact h1, h2⟩⟩
  intro s hs
  exact (h s hs).mono (fun a s' h => ⟨key s s' hs h.1.1 h.1.2, h.2⟩) (fun e s' h => ⟨key s s' hs h.1.1 h.1.2, h.2⟩)

theorem cacheIdx_frefs (t : Ty) (h : Handler) (s : LState) : (cacheIdx t h s).frefs = s.frefs := by
  unfold cacheIdx; split <;> rfl

/-! ## Outcomes -/

section sem
variable (W : World) (C : Config) (F : Names) (P : Handler → Val → Ty → Except Exc Val → Prop)

/-- Outcome of looking up the handler of `t`, and calling it on `x`. -/
inductive CallSem (missing : Exc) (x : Val) (t : Ty) : Except Exc Val → Prop
  | noHandler {c} : pick W C t = .error c → CallSem missing x t (.error (lookupExc missing c))
  | call {h o} : pick W C t = .ok h → P h x t o → CallSem missing x t o

/-- Outcome of `load(x, t, annotation)` made by a handler. -/
inductive LoadSem (x : Val) (t : Ty) (ann : Option Annotation) : Except Exc Val → Prop
  | noHandler {c} : pick W C t = .error c → LoadSem x t ann (.error (lookupExc (mkExc .tlType (.noHandler t) x t) c))
  | ok {h r} : pick W C t = .ok h → P h x t (.ok r) → LoadSem x t ann (.ok r)
  | err {h e} : pick W C t = .ok h → P h x t (.error e) → LoadSem x t ann (.error (loadExc x t ann e))

/-- Outcome for one element of a homogeneous collection. -/
inductive ElemSem (h : Handler) (et : Ty) (x : Val) : Except Exc Val → Prop
  | pass : PassThrough C et x → ElemSem h et x (.ok x)
  | call {o} : ¬ PassThrough C et x → P h x et o → ElemSem h et x o

/-- Outcome of the element loop of a homogeneous collection. -/
inductive IterSem (h : Handler) (k : SeqKind) (et : Ty) (v : Val) (t : Ty) : List Val → Nat → List Val → Except Exc (List Val) → Prop
  | nil {i acc} : IterSem h k et v t [] i acc (.ok acc)
  | cons {x xs i acc y acc' o} : ElemSem C P h et x (.ok y) → collAdd W k acc y = .ok acc' → IterSem h k et v t xs (i + 1) acc' o →
      IterSem h k et v t (x :: xs) i acc o
  | unhashable {x xs i acc y c} : ElemSem C P h et x (.ok y) → collAdd W k acc y = .error c →
      IterSem h k et v t (x :: xs) i acc (.error (elemError v t i (.plain c)))
  | stop {x xs i acc e} : ElemSem C P h et x (.error e) → usesMap C et = true → e.cls = .stopIteration →
      IterSem h k et v t (x :: xs) i acc (.ok acc)
  | elem {x xs i acc e} : ElemSem C P h et x (.error e) → ¬ (usesMap C et = true ∧ e.cls = .stopIteration) →
      IterSem h k et v t (x :: xs) i acc (.error (elemError v t i e))

/-- Outcome for one position of a fixed tuple. -/
inductive TupElemSem (x : Val) (u : Ty) : Except Exc Val → Prop
  | noHandler {c} : pick W C u = .error c → TupElemSem x u (.error (.plain c))
  | pass {h} : pick W C u = .ok h → C.isBasic u = true → typeOf x = u → TupElemSem x u (.ok x)
  | call {h o} : pick W C u = .ok h → ¬ (C.isBasic u = true ∧ typeOf x = u) → P h x u o → TupElemSem x u o

/-- Outcome of the loop over the positions of a fixed tuple. -/
inductive TupSem (v : Val) (t : Ty) : List Val → List Ty → Nat → Except Exc (List Val) → Prop
  | nil_left {us i} : TupSem v t [] us i (.ok [])
  | nil_right {xs i} : TupSem v t xs [] i (.ok [])
  | ok {x xs u us i y ys} : TupElemSem W C P x u (.ok y) → TupSem v t xs us (i + 1) (.ok ys) →
      TupSem v t (x :: xs) (u :: us) i (.ok (y :: ys))
  | later {x xs u us i y e} : TupElemSem W C P x u (.ok y) → TupSem v t xs us (i + 1) (.error e) →
      TupSem v t (x :: xs) (u :: us) i (.error e)
  | elem {x xs u us i e} : TupElemSem W C P x u (.error e) → TupSem v t (x :: xs) (u :: us) i (.error (elemError v t i e))

/-- Key or value of a dictionary in the first pass: instances of basic types are kept. -/
inductive FastPart (h : Option Handler) (t : Ty) (x : Val) : Val → Prop
  | pass : BasicInstance C t x → FastPart h t x x
  | call {hh y} : ¬ BasicInstance C t x → h = some hh → P hh x t (.ok y) → FastPart h t x y

/-- Success of the first pass over a dictionary. -/
inductive FastSem (kt vt : Ty) (keyF : Handler) (valF : Option Handler) : List (Val × Val) → List (Val × Val) → List (Val × Val) → Prop
  | nil {acc} : FastSem kt vt keyF valF [] acc acc
  | cons {k x rest acc k' x' res} : FastPart C P (some keyF) kt k k' → FastPart C P valF vt x x' → W.hash k' = true →
      FastSem kt vt keyF valF rest (dset acc k' x') res → FastSem kt vt keyF valF ((k, x) :: rest) acc res

/-- Outcome of the second pass over a dictionary. -/
inductive SlowSem (kt vt : Ty) : List (Val × Val) → List (Val × Val) → Except Exc (List (Val × Val)) → Prop
  | nil {acc} : SlowSem kt vt [] acc (.ok acc)
  | cons {k x rest acc k' x' o} : LoadSem W C P k kt (some (.key k)) (.ok k') → LoadSem W C P x vt (some (.value x)) (.ok x') →
      W.hash k' = true → SlowSem kt vt rest (dset acc k' x') o → SlowSem kt vt ((k, x) :: rest) acc o
  | key {k x rest acc e} : LoadSem W C P k kt (some (.key k)) (.error e) → SlowSem kt vt ((k, x) :: rest) acc (.error e)
  | value {k x rest acc k' e} : LoadSem W C P k kt (some (.key k)) (.ok k') → LoadSem W C P x vt (some (.value x)) (.error e) →
      SlowSem kt vt ((k, x) :: rest) acc (.error e)
  | unhashable {k x rest acc k' x'} : LoadSem W C P k kt (some (.key k)) (.ok k') → LoadSem W C P x vt (some (.value x)) (.ok x') →
      W.hash k' = false → SlowSem kt vt ((k, x) :: rest) acc (.error (.plain .type))

/-- Outcome of the loop over the data of an object. -/
inductive FieldsSem (info : ObjInfo) (v : Val) (t : Ty) : List (Val × Val) → List (String × Val) → Except Exc (List (String × Val)) → Prop
  | nil {acc} : FieldsSem info v t [] acc (.ok acc)
  | other {k x rest acc o} : isFieldKey info.fields k = false → FieldsSem info v t rest acc o → FieldsSem info v t ((k, x) :: rest) acc o
  | field {m x rest acc ft h y o} : m ∈ info.fields → aget info.hints m = some ft → pick W C ft = .ok h → P h x ft (.ok y) →
      FieldsSem info v t rest (aset acc m y) o → FieldsSem info v t ((.str m, x) :: rest) acc o
  | fieldErr {m x rest acc ft h e} : m ∈ info.fields → aget info.hints m = some ft → pick W C ft = .ok h → P h x ft (.error e) →
      FieldsSem info v t ((.str m, x) :: rest) acc (.error (if e.isTL then e.push ⟨v, t, some (.field m)⟩ else e))
  | noHandler {m x rest acc ft c} : m ∈ info.fields → aget info.hints m = some ft → pick W C ft = .error c →
      FieldsSem info v t ((.str m, x) :: rest) acc (.error (lookupExc (mkExc .tlType (.noHandler ft) v ft) c))

/-- Outcome of the loop over the members of a union. -/
inductive TrySem (v : Val) (t : Ty) : List Ty → Nat → Val → List Exc → Except Exc (Nat × Val × List Exc) → Prop
  | nil {c r es} : TrySem v t [] c r es (.ok (c, r, es))
  | win {u us c r es x} : CallSem W C P (mkExc .tlValue (.noHandlerIn u t) v u) v u (.ok x) → C.uniondebugconflict = false →
      TrySem v t (u :: us) c r es (.ok (c + 1, x, es))
  | count {u us c r es x o} : CallSem W C P (mkExc .tlValue (.noHandlerIn u t) v u) v u (.ok x) → C.uniondebugconflict = true →
      TrySem v t us (c + 1) x es o → TrySem v t (u :: us) c r es o
  | refuse {u us c r es e o} : CallSem W C P (mkExc .tlValue (.noHandlerIn u t) v u) v u (.error e) → e.isTL = true →
      TrySem v t us c r (es ++ [e.push ⟨v, t, some (.union u)⟩]) o → TrySem v t (u :: us) c r es o
  | crash {u us c r es e} : CallSem W C P (mkExc .tlValue (.noHandlerIn u t) v u) v u (.error e) → e.isTL = false →
      TrySem v t (u :: us) c r es (.error e)

/-- Outcome of the loop over the type hints of an Enum. -/
inductive HintsSem (v : Val) (e : Nat) : List Ty → List Exc → Except Exc Val → Prop
  | nil {es} : HintsSem v e [] es (.error (mkExcSubs .tlValue (.enumNone (.enum e)) v (.enum e) es))
  | ok {u us es x m} : LoadSem W C P v u (some (.union u)) (.ok x) → enumCall W e x = some m → HintsSem v e (u :: us) es (.ok m)
  | noMember {u us es x o} : LoadSem W C P v u (some (.union u)) (.ok x) → enumCall W e x = none →
      HintsSem v e us (es ++ [.plain .value]) o → HintsSem v e (u :: us) es o
  | err {u us es ex o} : LoadSem W C P v u (some (.union u)) (.error ex) → HintsSem v e us (es ++ [ex]) o → HintsSem v e (u :: us) es o

/-- Handlers that do not call others. -/
def Handler.isLeaf : Handler → Bool
  | .noneload | .basicload | .literalload | .datetimeload | .patternload | .timedeltaload | .strconstructload | .anyload => true
  | _ => false

/-- The kind of collection built by a handler. -/
def iterKind : Handler → Option SeqKind
  | .listload => some .list | .setload => some .set | .frozensetload => some .frozenset | .tupleload => some .tuple
  | _ => none

/-- The handler can work on the type: otherwise an attribute of the type is missing. -/
def suits (W : World) : Handler → Ty → Bool
  | .unionload, .union _ => true
  | .enumload, .enum _ => true
  | .tupleload, .coll .tuple _ => true
  | .tupleload, .tuple _ => true
  | .listload, .coll _ _ => true
  | .setload, .coll _ _ => true
  | .frozensetload, .coll _ _ => true
  | .dictload, .dict _ _ => true
  | .namedtupleload, .obj c => (W.cls c).kind == .namedtuple
  | .dataclassload, .obj c => (W.cls c).kind == .dataclass
  | .attrload, .obj c => (W.cls c).kind == .attrs
  | .typeddictload, .obj c => (W.cls c).kind == .typeddict
  | .forwardrefload, .fref _ => true
  | .newtypeload, .newtype _ _ => true
  | .custom _, _ => true
  | _, _ => false

/-- The data as `_dictload` sees it. -/
def asDict (C : Config) (v : Val) : Val := dictequivalence C v

/-- Outcome of a user-supplied handler. -/
inductive ScriptSem : Script → Except Exc Val → Prop
  | ret {v} : ScriptSem (.ret v) (.ok v)
  | raise {e} : ScriptSem (.raise e) (.error e)
  | call {v t a next o o'} : LoadSem W C P v t a o → ScriptSem (next o) o' → ScriptSem (.call v t a next) o'

/-- Outcome of a class handler. -/
inductive ObjSem (v : Val) (c : Nat) : Except Exc Val → Prop
  | stop : (W.cls c).kind = .attrs → attrHints (W.cls c).fields = .error .stopIteration → ObjSem v c (.error (.plain .stopIteration))
  | mangle {info e} : InfoFor W C c info → MangleErr C info.transforms v e → (∃ cl m, cl.isTL = true ∧ e = mkExc cl m v (.obj c)) →
      ObjSem v c (.error e)
  | noDict {info} : InfoFor W C c info → (∀ kvs, ¬ DictData C v kvs) → info.transforms = [] →
      ObjSem v c (.error (mkExc .tlAttr (.py .attr) v (.obj c)))
  | missing {info kvs kvs' m} : InfoFor W C c info → Mangled C info.transforms v kvs kvs' → (∃ f ∈ info.necessary, f ∉ strKeys kvs') →
      ObjSem v c (.error (mkExc .tlValue m (.dict kvs') (.obj c)))
  | extra {info kvs kvs' m} : InfoFor W C c info → Mangled C info.transforms v kvs kvs' → C.failonextra = true →
      (∃ p ∈ kvs', isFieldKey info.fields p.1 = false) → ObjSem v c (.error (mkExc .tlValue m (.dict kvs') (.obj c)))
  | extraKey {info kvs kvs'} : InfoFor W C c info → Mangled C info.transforms v kvs kvs' → C.failonextra = true →
      (∃ p ∈ kvs', strKey p.1 = none) → ObjSem v c (.error (.plain .type))
  | field {info kvs kvs' e} : InfoFor W C c info → Mangled C info.transforms v kvs kvs' → (∀ f ∈ info.necessary, f ∈ strKeys kvs') →
      FieldsSem W C P info (.dict kvs') (.obj c) kvs' [] (.error e) → ObjSem v c (.error e)
  | construct {info kvs kvs' params x} : InfoFor W C c info → Mangled C info.transforms v kvs kvs' →
      (∀ f ∈ info.necessary, f ∈ strKeys kvs') → FieldsSem W C P info (.dict kvs') (.obj c) kvs' [] (.ok params) →
      construct W c params = .error x → ObjSem v c (.error (constructExc x))
  | ok {info kvs kvs' params r} : InfoFor W C c info → Mangled C info.transforms v kvs kvs' →
      (∀ f ∈ info.necessary, f ∈ strKeys kvs') → (C.failonextra = true → ∀ p ∈ kvs', isFieldKey info.fields p.1 = true) →
      FieldsSem W C P info (.dict kvs') (.obj c) kvs' [] (.ok params) → construct W c params = .ok r → ObjSem v c (.ok r)

/-- Outcome of a handler call. -/
inductive StepSem : Handler → Val → Ty → Except Exc Val → Prop
  | leaf {h v t o} : h.isLeaf = true → (∀ rec : Rec, step W C rec h v t = M.lift o) → StepSem h v t o
  | mismatch {h v t} : h.isLeaf = false → suits W h t = false → StepSem h v t (.error (.plain .attr))
  | iterDict {h v t k} : iterKind h = some k → v.isDict = true → StepSem h v t (.error (mkExc .tlType .dictAsIter v t))
  | iterLookup {h v k k' et c} : iterKind h = some k → pick W C et = .error c →
      StepSem h v (.coll k' et) (.error (lookupExc (mkExc .tlType (.noHandler et) v et) c))
  | iterNot {h v k k' et} : iterKind h = some k → pyIter v = none → StepSem h v (.coll k' et) (.error (mkExc .tlType (.py .type) v (.coll k' et)))
  | iterErr {h v k k' et h' xs e} : iterKind h = some k → v.isDict = false → pyIter v = some xs → pick W C et = .ok h' →
      IterSem W C P h' k et v (.coll k' et) xs 0 [] (.error e) → StepSem h v (.coll k' et) (.error e)
  | iter {h v k k' et h' xs ys} : iterKind h = some k → v.isDict = false → pyIter v = some xs → pick W C et = .ok h' →
      IterSem W C P h' k et v (.coll k' et) xs 0 [] (.ok ys) → StepSem h v (.coll k' et) (.ok (.seq k ys))
  | tupDict {v ts} : v.isDict = true → StepSem .tupleload v (.tuple ts) (.error (mkExc .tlType .dictAsTuple v (.tuple ts)))
  | tupLen {v ts} : pyIter v = none → StepSem .tupleload v (.tuple ts) (.error (.plain .type))
  | tupSize {v ts xs m} : pyIter v = some xs → xs.length < ts.length ∨ C.failonextra = true ∧ ts.length < xs.length →
      StepSem .tupleload v (.tuple ts) (.error (mkExc .tlValue m v (.tuple ts)))
  | tupErr {v ts xs e} : v.isDict = false → pyIter v = some xs → ts.length ≤ xs.length →
      TupSem W C P v (.tuple ts) xs ts 0 (.error e) → StepSem .tupleload v (.tuple ts) (.error e)
  | tup {v ts xs ys} : v.isDict = false → pyIter v = some xs → ts.length ≤ xs.length → (C.failonextra = true → xs.length = ts.length) →
      TupSem W C P v (.tuple ts) xs ts 0 (.ok ys) → StepSem .tupleload v (.tuple ts) (.ok (.seq .tuple ys))
  | dictLookup {v kt vt u c} : u = kt ∨ u = vt → pick W C u = .error c →
      StepSem .dictload v (.dict kt vt) (.error (lookupExc (mkExc .tlValue (.noHandlerIn u (.dict kt vt)) v u) c))
  | dictNot {v kt vt} : (∀ kvs, ¬ DictData C v kvs) → StepSem .dictload v (.dict kt vt) (.error (mkExc .tlAttr .wrapped v (.dict kt vt)))
  | dictFast {v kt vt kvs hk hv keyF valF res} : DictData C v kvs → pick W C kt = .ok hk → pick W C vt = .ok hv →
      (keyF = hk ∧ valF = some hv ∨ keyF = hv ∧ valF = none) → FastSem W C P kt vt keyF valF kvs [] res →
      StepSem .dictload v (.dict kt vt) (.ok (.dict res))
  | dictSlow {v kt vt kvs hk hv res} : DictData C v kvs → pick W C kt = .ok hk → pick W C vt = .ok hv →
      SlowSem W C P kt vt kvs [] (.ok res) → StepSem .dictload v (.dict kt vt) (.ok (.dict res))
  | dictErr {v kt vt kvs hk hv e} : DictData C v kvs → pick W C kt = .ok hk → pick W C vt = .ok hv →
      SlowSem W C P kt vt kvs [] (.error e) →
      StepSem .dictload v (.dict kt vt) (.error (if e.cls.isAttr then mkExc .tlAttr .wrapped (asDict C v) (.dict kt vt) else e))
  | obj {v c o} : ObjSem W C P v c o → StepSem (objHandler (W.cls c).kind) v (.obj c) o
  | unionBasic {v ts} : ExactBasic C v ts → StepSem .unionload v (.union ts) (.ok v)
  | unionTag {v ts} : UnhashableTag W v ts → StepSem .unionload v (.union ts) (.error (.plain .type))
  | unionCrash {v ts order e} : ¬ ExactBasic C v ts → TryOrder W C v ts order → TrySem W C P v (.union ts) order 0 .none [] (.error e) →
      StepSem .unionload v (.union ts) (.error e)
  | unionOne {v ts order r es} : ¬ ExactBasic C v ts → TryOrder W C v ts order → TrySem W C P v (.union ts) order 0 .none [] (.ok (1, r, es)) →
      StepSem .unionload v (.union ts) (.ok r)
  | unionNone {v ts order r es} : ¬ ExactBasic C v ts → TryOrder W C v ts order → TrySem W C P v (.union ts) order 0 .none [] (.ok (0, r, es)) →
      StepSem .unionload v (.union ts) (.error (mkExcSubs .tlValue (.unionNone (.union ts)) v (.union ts) es))
  | unionMany {v ts order n r es} : ¬ ExactBasic C v ts → TryOrder W C v ts order → TrySem W C P v (.union ts) order 0 .none [] (.ok (n + 2, r, es)) →
      StepSem .unionload v (.union ts) (.error (mkExcSubs .tlType (.unionMany (.union ts) (n + 2)) v (.union ts) es))
  | enumMember {v e m} : enumCall W e v = some m → StepSem .enumload v (.enum e) (.ok m)
  | enumHints {v e o} : enumCall W e v = none → HintsSem W C P v e (W.enm e).hints [] o → StepSem .enumload v (.enum e) o
  | frefDisabled {v n} : (∀ u, ¬ F.has n u) → StepSem .forwardrefload v (.fref n) (.error (mkExc .tlBase .frefDisabled v (.fref n)))
  | frefUnknown {v n} : (∀ u, ¬ F.has n u) → StepSem .forwardrefload v (.fref n) (.error (mkExc .tlValue (.frefUnknown n) v (.fref n)))
  | fref {v n t o} : F n t → (∀ u, F.has n u → u = t) → LoadSem W C P v t (some (.forwardref n)) o → StepSem .forwardrefload v (.fref n) o
  | newtype {v n t o} : LoadSem W C P v t none o → StepSem .newtypeload v (.newtype n t) o
  | custom {i v t o} : Installed C (.custom i) → ScriptSem W C P (W.customLoad i v t) o → StepSem (.custom i) v t o
end sem

/-! ## Lookups -/

theorem Sat.resolve (t : Ty) (m : Exc) : Sat W C F (resolve W C t m) (fun o => o = match pick W C t with
    | .ok h => .ok h
    | .error c => .error (lookupExc m c)) := by
  apply Sat.of_post
  intro s hs
  unfold Post
  rw [resolve_eq hs.coh]
  cases hp : pick W C t with
  | ok h => exact ⟨⟨cacheIdx_ext hp, cacheIdx_frefs _ _ _⟩, rfl⟩
  | error c => exact ⟨⟨Ext.refl s, rfl⟩, rfl⟩

theorem registerName_frefs {s : LState} {t : Ty} {n : String} {t' : Ty} (h : Bound (registerName W t s) n t') :
    Bound s n t' ∨ (t' = t ∧ W.tyName t = some n) := by
  unfold registerName at h
  split at h
  · exact Or.inl h
  · rename_i fr hfr
    split at h
    · exact Or.inl h
    · rename_i m hm
      split at h
      · exact Or.inl h
      · obtain ⟨fr', h1, h2⟩ := h
        cases h1
        rw [aget_aset] at h2
        split at h2
        · rename_i hmn; subst hmn; cases h2; exact Or.inr ⟨rfl, hm⟩
        · exact Or.inl ⟨fr, hfr, h2⟩

theorem cacheReg_keeps {s : LState} {t : Ty} {h : Handler} {n : String} {u : Ty} (hb : Bound s n u) : Bound (cacheReg W t h s) n u := by
  unfold TL.cacheReg
  split
  · exact hb
  · obtain ⟨fr, h1, h2⟩ := hb
    unfold registerName
    simp only [h1]
    split
    · exact ⟨fr, rfl, h2⟩
    · rename_i m hm
      split
      · exact ⟨fr, rfl, h2⟩
      · rename_i hx
        refine ⟨_, rfl, ?_⟩
        rw [aget_aset]
        split
        · rename_i hmn; subst hmn; rw [h2] at hx; cases hx
        · exact h2

theorem Good.cacheReg (hcl : Closed W C G F) {s : LState} (hs : Good W C F s) {t : Ty} (hg : G t) {h : Handler} (hp : pick W C t = .ok h) :
    Good W C F (cacheReg W t h s) := by
  refine ⟨hs.coh.ext (cacheReg_ext hp), ?_, fun n u hn => cacheReg_keeps (hs.known n u hn)⟩
  intro n t' hb
  unfold TL.cacheReg at hb
  split at hb
  · exact hs.bound n t' hb
  · rcases registerName_frefs hb with hb | ⟨rfl, hn⟩
    · obtain ⟨fr, h1, h2⟩ := hb; exact hs.bound n t' ⟨fr, h1, h2⟩
    · exact hcl.names n _ hg hn

section steps
variable (hcl : Closed W C G F) {P : Handler → Val → Ty → Except Exc Val → Prop} {rec : Rec}
  (hrec : ∀ h x t, Installed C h → G t → Sat W C F (rec h x t) (P h x t))
include hcl hrec

theorem Sat.loadWith (x : Val) {t : Ty} (hg : G t) (a : Option Annotation) :
    Sat W C F (loadWith W C rec x t a) (LoadSem W C P x t a) := by
  intro s hs
  unfold Post
  rw [loadWith_eq hs.coh]
  cases hp : pick W C t with
  | error c => exact ⟨hs, .noHandler hp⟩
  | ok h =>
    dsimp only
    have := hrec h x t (pick_installed hp) hg _ (hs.cacheReg hcl hg hp)
    unfold Post at this
    cases hr : rec h x t (cacheReg W t h s) with
    | ok r s' => rw [hr] at this; exact ⟨this.1, .ok hp this.2⟩
    | err e s' => rw [hr] at this; exact ⟨this.1, .err hp this.2⟩
    | div => trivial

theorem Sat.forwardrefload (v : Val) (t : Ty) : Sat W C F (forwardrefload W C rec v t) (StepSem W C F P .forwardrefload v t) := by
  unfold TL.forwardrefload
  split
  · rename_i n
    intro s hs
    rw [post_bind, post_get]
    split
    · rename_i hfr
      exact ⟨hs, .frefDisabled (fun u hn => by obtain ⟨fr, h1, _⟩ := hs.known n u hn; rw [hfr] at h1; cases h1)⟩
    · rename_i fr hfr
      split
      · rename_i ht'
        exact ⟨hs, .frefUnknown (fun u hn => by obtain ⟨fr', h1, h2⟩ := hs.known n u hn; rw [hfr] at h1; cases h1; rw [ht'] at h2; cases h2)⟩
      · rename_i t' ht'
        have hF := hs.bound n t' ⟨fr, hfr, ht'⟩
        exact ((Sat.loadWith hcl hrec v (hcl.bound n t' hF) _).mono (fun o ho => StepSem.fref hF (fun u hn => by obtain ⟨fr', h1, h2⟩ := hs.known n u hn; rw [hfr] at h1; cases h1; rw [ht'] at h2; cases h2; rfl) ho)) s hs
  · rename_i hne
    refine Sat.throw (.mismatch rfl ?_)
    cases t <;> first | rfl | exact absurd rfl (hne _)

theorem Sat.newtypeload (v : Val) (t : Ty) (hg : G t) : Sat W C F (newtypeload W C rec v t) (StepSem W C F P .newtypeload v t) := by
  unfold TL.newtypeload
  split
  · rename_i n t'
    exact (Sat.loadWith hcl hrec v (hcl.newtype n t' hg) _).mono (fun o ho => StepSem.newtype ho)
  · rename_i hne
    refine Sat.throw (.mismatch rfl ?_)
    cases t <;> first | rfl | exact absurd rfl (hne _ _)

omit hcl in
theorem Sat.iterElem {h : Handler} (hin : Installed C h) {et : Ty} (hg : G et) (x : Val) : Sat W C F (iterElem C rec h et x) (ElemSem C P h et x) := by
  by_cases hp : PassThrough C et x
  · rw [iterElem_pass _ _ hp]; exact Sat.pure (.pass hp)
  · rw [iterElem_call _ _ hp]; exact (hrec h x et hin hg).mono (fun o ho => .call hp ho)

omit hcl in
theorem Sat.iterElems {h : Handler} (hin : Installed C h) (k : SeqKind) {et : Ty} (hg : G et) (v : Val) (t : Ty) (xs : List Val) :
    ∀ i acc, Sat W C F (iterElems W C rec h k et v t xs i acc) (IterSem W C P h k et v t xs i acc) := by
  induction xs with
  | nil => intro i acc; exact Sat.pure .nil
  | cons x xs ih =>
    intro i acc
    unfold TL.iterElems
    refine Sat.handle (Sat.iterElem hrec hin hg x) ?_ ?_
    · intro y hy
      split
      · rename_i c hc; exact Sat.throw (.unhashable hy hc)
      · rename_i acc' hc; exact (ih (i + 1) acc').mono (fun o ho => .cons hy hc ho)
    · intro e he
      split
      · rename_i hst
        simp only [Bool.and_eq_true, beq_iff_eq] at hst
        exact Sat.pure (.stop he hst.1 hst.2)
      · rename_i hst
        refine Sat.throw (.elem he ?_)
        rintro ⟨h1, h2⟩
        exact hst (by simp [h1, h2])

theorem Sat.iterload {h : Handler} {k : SeqKind} (hk : iterKind h = some k) (hnt : ∀ k' et, suits W h (.coll k' et) = true ∨ True)
    (v : Val) (t : Ty) (hg : G t) (hsu : (∀ k' et, t ≠ .coll k' et) → suits W h t = false) :
    Sat W C F (iterload W C rec k v t) (StepSem W C F P h v t) := by
  unfold TL.iterload
  split
  · rename_i hv; exact Sat.throw (.iterDict hk hv)
  · rename_i hv
    have hv' : v.isDict = false := by simpa using hv
    split
    · rename_i k' et
      refine Sat.bind (Sat.resolve et _) ?_ ?_
      · intro h' hh'
        cases hp : pick W C et with
        | error c => rw [hp] at hh'; cases hh'
        | ok h2 =>
          rw [hp] at hh'; cases hh'
          split
          · rename_i hn; exact Sat.throw (.iterNot hk hn)
          · rename_i xs hx
            refine Sat.bind (Sat.iterElems hrec (pick_installed hp) k (hcl.coll k' et hg) v (.coll k' et) xs 0 []) ?_ ?_
            · intro ys hys; exact Sat.pure (.iter hk hv' hx hp hys)
            · intro e he; exact .iterErr hk hv' hx hp he
      · intro e he
        cases hp : pick W C et with
        | error c => rw [hp] at he; cases he; exact .iterLookup hk hp
        | ok h2 => rw [hp] at he; cases he
    · rename_i hne
      refine Sat.throw (.mismatch ?_ (hsu hne))
      cases h <;> first | rfl | cases hk

theorem Sat.tupElems (v : Val) (t : Ty) (xs : List Val) : ∀ (us : List Ty) (i : Nat), (∀ u ∈ us, G u) →
    Sat W C F (tupElems W C rec v t xs us i) (TupSem W C P v t xs us i) := by
  induction xs with
  | nil => intro us i _; unfold TL.tupElems; exact Sat.pure .nil_left
  | cons x xs ih =>
    intro us i hg
    cases us with
    | nil => unfold TL.tupElems; exact Sat.pure .nil_right
    | cons u us =>
      unfold TL.tupElems
      have helem : Sat W C F (do let h ← tupHandler W C u; if C.isBasic u && typeOf x == u then (Pure.pure x : L Val) else rec h x u : L Val)
          (TupElemSem W C P x u) := by
        have hth : Sat W C F (tupHandler W C u) (fun o => o = match pick W C u with
            | .ok h => .ok h
            | .error c => .error (.plain c)) := by
          apply Sat.of_post
          intro s hs
          refine (tupHandler_spec (C := C) hs.coh).mono ?_ ?_
          · rintro h s' ⟨rfl, hp⟩; exact ⟨⟨Ext.refl _, rfl⟩, by rw [hp]⟩
          · rintro e s' ⟨rfl, c, hp, rfl⟩; exact ⟨⟨Ext.refl _, rfl⟩, by rw [hp]⟩
        refine Sat.bind hth ?_ ?_
        · intro h hh
          cases hp : pick W C u with
          | error c => rw [hp] at hh; cases hh
          | ok h2 =>
            rw [hp] at hh; cases hh
            by_cases hb : (C.isBasic u && typeOf x == u) = true
            · rw [if_pos hb]
              have hb' : C.isBasic u = true ∧ typeOf x = u := by simpa [ty_beq] using hb
              exact Sat.pure (.pass hp hb'.1 hb'.2)
            · rw [if_neg hb]
              have hb' : ¬ (C.isBasic u = true ∧ typeOf x = u) := by simpa [ty_beq] using hb
              exact (hrec h x u (pick_installed hp) (hg u (by simp))).mono (fun o ho => .call hp hb' ho)
        · intro e he
          cases hp : pick W C u with
          | error c => rw [hp] at he; cases he; exact .noHandler hp
          | ok h2 => rw [hp] at he; cases he
      refine Sat.bind (Q := fun o => (∃ y, o = .ok y ∧ TupElemSem W C P x u (.ok y)) ∨
        ∃ e, o = .error (elemError v t i e) ∧ TupElemSem W C P x u (.error e)) ?_ ?_ ?_
      · refine Sat.rescue helem (fun y hy => Or.inl ⟨y, rfl, hy⟩) (fun e he => Sat.throw (Or.inr ⟨e, rfl, he⟩))
      · rintro y (⟨y', h1, hy⟩ | ⟨_, h1, _⟩)
        · cases h1
          refine Sat.bind (ih us (i + 1) (fun u' hu' => hg u' (by simp [hu']))) ?_ ?_
          · intro ys hys; exact Sat.pure (.ok hy hys)
          · intro e he; exact .later hy he
        · cases h1
      · rintro e (⟨y', h1, hy⟩ | ⟨e', h1, he⟩)
        · cases h1
        · cases h1; exact .elem he

theorem Sat.tupleload (v : Val) (t : Ty) (hg : G t) : Sat W C F (tupleload W C rec v t) (StepSem W C F P .tupleload v t) := by
  unfold TL.tupleload
  split
  · exact Sat.iterload hcl hrec rfl (fun _ _ => Or.inr trivial) v _ hg (fun h => absurd rfl (h _ _))
  · rename_i ts
    split
    · rename_i hv; exact Sat.throw (.tupDict hv)
    · rename_i hv
      have hv' : v.isDict = false := by simpa using hv
      split
      · rename_i hn; exact Sat.throw (.tupLen hn)
      · rename_i xs hx
        by_cases h1 : (C.failonextra && decide (xs.length > ts.length)) = true
        · rw [if_pos h1]
          simp only [Bool.and_eq_true, decide_eq_true_eq] at h1
          exact Sat.throw (.tupSize hx (Or.inr h1))
        · rw [if_neg h1]
          by_cases h2 : xs.length < ts.length
          · rw [if_pos h2]; exact Sat.throw (.tupSize hx (Or.inl h2))
          · rw [if_neg h2]
            refine Sat.bind (Sat.tupElems hcl hrec v (.tuple ts) xs ts 0 (hcl.tuple ts hg)) ?_ ?_
            · intro ys hys
              refine Sat.pure (.tup hv' hx (by omega) ?_ hys)
              intro hf; simp [hf] at h1; omega
            · intro e he; exact .tupErr hv' hx (by omega) he
  · rename_i h1 h2
    refine Sat.throw (.mismatch rfl ?_)
    cases t with
    | coll k et => cases k <;> first | rfl | exact absurd rfl (h1 _)
    | tuple ts => exact absurd rfl (h2 _)
    | _ => rfl

omit hcl hrec in
theorem isInstTy_iff {t : Ty} {x : Val} : (C.isBasic t && isInstTy t x) = true ↔ BasicInstance C t x := by
  constructor
  · exact isInstTy_basic
  · rintro ⟨p, rfl, h1, h2⟩; simp [Config.isBasic, isInstTy, h1, h2]

theorem Sat.dictFast {kt vt : Ty} (hk : G kt) (hv : G vt) {keyF : Handler} {valF : Option Handler} (hki : Installed C keyF) (hvi : ∀ h, valF = some h → Installed C h) (kvs : List (Val × Val)) :
    ∀ acc, Sat W C F (dictFast W C rec kt vt keyF valF kvs acc) (fun o => ∀ res, o = .ok res → FastSem W C P kt vt keyF valF kvs acc res) := by
  induction kvs with
  | nil => intro acc; exact Sat.pure (fun res h => by cases h; exact .nil)
  | cons p kvs ih =>
    obtain ⟨k, x⟩ := p
    intro acc
    rw [dictFast_cons]
    have part : ∀ (hh : Handler) (t : Ty) (x : Val), Installed C hh → G t →
        Sat W C F (if (C.isBasic t && isInstTy t x) = true then (Pure.pure x : L Val) else rec hh x t : L Val)
          (fun o => ∀ y, o = .ok y → FastPart C P (some hh) t x y) := by
      intro hh t x hin hg
      by_cases hb : (C.isBasic t && isInstTy t x) = true
      · rw [if_pos hb]; exact Sat.pure (fun y hy => by cases hy; exact .pass (isInstTy_iff.1 hb))
      · rw [if_neg hb]
        exact (hrec hh x t hin hg).mono (fun o ho y hy => by
          subst hy; exact .call (fun h => hb (isInstTy_iff.2 h)) rfl ho)
    refine Sat.bind (part keyF kt k hki hk) ?_ (fun _ _ _ h => by cases h)
    intro k' hk'
    refine Sat.bind (Q := fun o => ∀ y, o = .ok y → FastPart C P valF vt x y) ?_ ?_ (fun _ _ _ h => by cases h)
    · cases valF with
      | some hh => exact part hh vt x (hvi hh rfl) hv
      | none =>
        by_cases hb : (C.isBasic vt && isInstTy vt x) = true
        · rw [if_pos hb]; exact Sat.pure (fun y hy => by cases hy; exact .pass (isInstTy_iff.1 hb))
        · rw [if_neg hb]; exact Sat.throw (fun y hy => by cases hy)
    · intro x' hx'
      split
      · rename_i hh
        exact (ih (dset acc k' x')).mono (fun o ho res hr => .cons (hk' k' rfl) (hx' x' rfl) hh (ho res hr))
      · exact Sat.throw (fun _ h => by cases h)

theorem Sat.dictSlow {kt vt : Ty} (hk : G kt) (hv : G vt) (kvs : List (Val × Val)) :
    ∀ acc, Sat W C F (dictSlow W C rec kt vt kvs acc) (SlowSem W C P kt vt kvs acc) := by
  induction kvs with
  | nil => intro acc; exact Sat.pure .nil
  | cons p kvs ih =>
    obtain ⟨k, x⟩ := p
    intro acc
    unfold TL.dictSlow
    refine Sat.bind (Sat.loadWith hcl hrec k hk _) ?_ (fun e he => .key he)
    intro k' hk'
    refine Sat.bind (Sat.loadWith hcl hrec x hv _) ?_ (fun e he => .value hk' he)
    intro x' hx'
    split
    · rename_i hh; exact (ih _).mono (fun o ho => .cons hk' hx' hh ho)
    · rename_i hh; exact Sat.throw (.unhashable hk' hx' (by simpa using hh))

omit hcl hrec in
theorem Sat.dictValueHandler (v : Val) (t vt : Ty) (kf : Handler) : Sat W C F (dictValueHandler W C v t vt kf)
    (fun o => match o with
      | .ok p => ∃ hv, pick W C vt = .ok hv ∧ (p = (kf, some hv) ∨ p = (hv, none))
      | .error e => ∃ c, pick W C vt = .error c ∧ e = lookupExc (mkExc .tlValue (.noHandlerIn vt t) v vt) c) := by
  apply Sat.of_post
  intro s hs
  unfold Post
  rw [dictValueHandler_eq hs.coh]
  cases hp : pick W C vt with
  | ok h =>
    refine ⟨⟨cacheIdx_ext hp, cacheIdx_frefs _ _ _⟩, h, rfl, ?_⟩
    cases (aget s.idx vt).isSome <;> simp
  | error c => exact ⟨⟨Ext.refl s, rfl⟩, c, rfl, rfl⟩

theorem Sat.dictload (v : Val) (t : Ty) (hg : G t) : Sat W C F (dictload W C rec v t) (StepSem W C F P .dictload v t) := by
  unfold TL.dictload
  split
  · rename_i kt vt
    have hgk := hcl.dictKey _ _ hg
    have hgv := hcl.dictVal _ _ hg
    refine Sat.bind (Sat.resolve kt _) ?_ ?_
    · intro keyF0 hk0
      have hpk : pick W C kt = .ok keyF0 := by
        cases hp : pick W C kt with
        | error c => rw [hp] at hk0; cases hk0
        | ok h2 => rw [hp] at hk0; cases hk0; rfl
      refine Sat.bind (Sat.dictValueHandler v _ vt keyF0) ?_ ?_
      · rintro ⟨keyF, valF⟩ ⟨hv, hpv, hcase⟩
        have hcase' : keyF = keyF0 ∧ valF = some hv ∨ keyF = hv ∧ valF = none := by
          rcases hcase with h | h <;> cases h
          · exact Or.inl ⟨rfl, rfl⟩
          · exact Or.inr ⟨rfl, rfl⟩
        have hki : Installed C keyF := by
          rcases hcase' with ⟨h, _⟩ | ⟨h, _⟩ <;> rw [h]
          · exact pick_installed hpk
          · exact pick_installed hpv
        have hvi : ∀ h, valF = some h → Installed C h := by
          intro h he
          rcases hcase' with ⟨_, h2⟩ | ⟨_, h2⟩ <;> rw [h2] at he <;> cases he
          exact pick_installed hpv
        dsimp only
        cases hit : items (dictequivalence C v) with
        | none =>
          have hnd : ∀ kvs, ¬ DictData C v kvs := by
            intro kvs h
            rw [← items_dictequivalence (C := C)] at h; rw [h] at hit; cases hit
          have hvv : dictequivalence C v = v := by
            cases v with
            | ns fs =>
              cases hq : C.dictequivalence with
              | true => exact absurd (Or.inr ⟨fs, rfl, hq, rfl⟩) (hnd _)
              | false => simp [dictequivalence, hq]
            | _ => rfl
          dsimp only
          refine Sat.rescue (Q := fun o => ∃ e, o = .error e) (Sat.throw ⟨_, rfl⟩) (fun a h => by obtain ⟨_, h⟩ := h; cases h) ?_
          intro e _
          refine Sat.rescue (Q := fun o => o = .error (.plain .attr)) (Sat.throw rfl) (fun a h => by cases h) ?_
          intro e he; cases he
          refine Sat.throw ?_
          rw [hvv]
          exact .dictNot hnd
        | some kvs =>
          have hdata := (items_dictequivalence (C := C) v kvs).1 hit
          dsimp only
          refine Sat.rescue (Q := fun o => ∀ r, o = .ok r → ∃ res, r = .dict res ∧ FastSem W C P kt vt keyF valF kvs [] res) ?_ ?_ ?_
          · refine Sat.bind (Sat.dictFast hcl hrec hgk hgv hki hvi kvs []) ?_ (fun _ _ _ h => by cases h)
            intro res hres
            exact Sat.pure (fun r hr => by cases hr; exact ⟨res, rfl, hres res rfl⟩)
          · intro r hr
            obtain ⟨res, rfl, hres⟩ := hr r rfl
            exact .dictFast hdata hpk hpv hcase' hres
          · intro _ _
            refine Sat.rescue (Q := fun o => match o with
              | .ok r => ∃ res, r = .dict res ∧ SlowSem W C P kt vt kvs [] (.ok res)
              | .error e => SlowSem W C P kt vt kvs [] (.error e)) ?_ ?_ ?_
            · refine Sat.bind (Sat.dictSlow hcl hrec hgk hgv kvs []) ?_ (fun e he => he)
              intro res hres
              exact Sat.pure ⟨res, rfl, hres⟩
            · rintro r ⟨res, rfl, hres⟩
              exact .dictSlow hdata hpk hpv hres
            · intro e he
              have := StepSem.dictErr (F := F) hdata hpk hpv he
              split
              · rename_i ha; rw [if_pos ha] at this; exact Sat.throw this
              · rename_i ha; rw [if_neg ha] at this; exact Sat.throw this
      · rintro e ⟨c, hp, rfl⟩; exact .dictLookup (Or.inr rfl) hp
    · intro e he
      cases hp : pick W C kt with
      | error c => rw [hp] at he; cases he; exact .dictLookup (Or.inl rfl) hp
      | ok h2 => rw [hp] at he; cases he
  · rename_i hne
    refine Sat.throw (.mismatch rfl ?_)
    cases t <;> first | rfl | exact absurd rfl (hne _ _)

omit hcl in
theorem Sat.objFields {c : Nat} {info : ObjInfo} (hi : InfoFor W C c info) (hg : ∀ f ∈ (W.cls c).fields, ∀ t, FieldTy (W.cls c).kind f t → G t)
    (v : Val) (t : Ty) (kvs : List (Val × Val)) :
    ∀ acc, Sat W C F (objFields W C rec info v t kvs acc) (FieldsSem W C P info v t kvs acc) := by
  induction kvs with
  | nil => intro acc; exact Sat.pure .nil
  | cons p kvs ih =>
    obtain ⟨k, x⟩ := p
    intro acc
    by_cases hk : isFieldKey info.fields k = true
    · have : ∃ m, k = .str m ∧ m ∈ info.fields := by
        cases k <;> simp [isFieldKey] at hk
        exact ⟨_, rfl, hk⟩
      obtain ⟨m, rfl, hm⟩ := this
      rw [objFields_field _ _ _ _ hm]
      cases hh : aget info.hints m with
      | none =>
        rw [hi.fields] at hm
        obtain ⟨f, hf, rfl⟩ := List.mem_map.1 hm
        have := hi.hints_some f hf
        rw [hh] at this; cases this
      | some ft =>
        dsimp only
        obtain ⟨f, hf, _, hty⟩ := hi.hints m ft hh
        refine Sat.bind (Sat.resolve ft _) ?_ ?_
        · intro h hp
          have hp : pick W C ft = .ok h := by
            cases hp2 : pick W C ft with
            | error c => rw [hp2] at hp; cases hp
            | ok h2 => rw [hp2] at hp; cases hp; rfl
          refine Sat.bind (Q := fun o => match o with
            | .ok y => P h x ft (.ok y)
            | .error e => ∃ e', P h x ft (.error e') ∧ e = if e'.isTL then e'.push ⟨v, t, some (.field m)⟩ else e') ?_ ?_ ?_
          · refine Sat.rescue (hrec h x ft (pick_installed hp) (hg f hf ft hty)) (fun _ h => h) ?_
            intro e he
            split
            · rename_i htl; exact Sat.throw ⟨e, he, by rw [if_pos htl]⟩
            · rename_i htl; exact Sat.throw ⟨e, he, by rw [if_neg htl]⟩
          · intro y hy
            exact (ih (aset acc m y)).mono (fun o ho => .field hm hh hp hy ho)
          · rintro e ⟨e', he, rfl⟩
            exact .fieldErr hm hh hp he
        · intro e he
          cases hp : pick W C ft with
          | error c => rw [hp] at he; cases he; exact .noHandler hm hh hp
          | ok h2 => rw [hp] at he; cases he
    · have hk' : isFieldKey info.fields k = false := by simpa using hk
      rw [objFields_other _ _ _ _ hk']
      exact (ih acc).mono (fun o ho => .other hk' ho)

omit hcl in
theorem Sat.objloader {c : Nat} {info : ObjInfo} (hi : InfoFor W C c info) (hg : ∀ f ∈ (W.cls c).fields, ∀ t, FieldTy (W.cls c).kind f t → G t)
    {v v' : Val} (hm : (info.transforms = [] ∧ v' = v) ∨
      ∃ kvs kvs', v = .dict kvs ∧ v' = .dict kvs' ∧ info.transforms ≠ [] ∧ mangleLoop info.transforms C.failonextra kvs [] = .ok kvs') :
    Sat W C F (objloader W C rec info v' c) (ObjSem W C P v c) := by
  have key : ∀ kvs', DictData C v' kvs' → ∃ kvs, Mangled C info.transforms v kvs kvs' := by
    intro kvs' hd
    rcases hm with ⟨h1, rfl⟩ | ⟨kvs, kvs2, rfl, rfl, h3⟩
    · exact ⟨kvs', hd, Or.inl ⟨h1, rfl⟩⟩
    · rcases hd with hd | ⟨_, hd, _⟩
      · cases hd; exact ⟨kvs, Or.inl rfl, Or.inr ⟨rfl, h3⟩⟩
      · cases hd
  unfold TL.objloader
  cases hv : objItems C v' with
  | none =>
    have hnd := (objItems_none v').1 hv
    rcases hm with ⟨h4, rfl⟩ | ⟨kvs, kvs2, rfl, rfl, _⟩
    · exact Sat.throw (.noDict hi hnd h4)
    · exact absurd (Or.inl rfl) (hnd kvs2)
  | some p =>
    obtain ⟨w, kvs'⟩ := p
    have hdata := (objItems_iff v' kvs').1 ⟨w, hv⟩
    have hw : w = .dict kvs' := by
      unfold objItems at hv
      split at hv
      · cases hv; rfl
      · split at hv
        · cases hv; rfl
        · cases hv
      · cases hv
    subst hw
    obtain ⟨kvs, hmg⟩ := key kvs' hdata
    dsimp only
    by_cases hnec : info.necessary.all (fun n => dhas kvs' (.str n)) = true
    · have hnec' : ∀ f ∈ info.necessary, f ∈ strKeys kvs' := by
        intro f hf; rw [List.all_eq_true] at hnec; exact (dhas_str kvs' f).1 (hnec f hf)
      simp only [hnec, Bool.not_true, Bool.false_eq_true, if_false]
      by_cases hex : (C.failonextra && !(extraKeys info kvs').isEmpty) = true
      · rw [if_pos hex]
        simp only [Bool.and_eq_true, Bool.not_eq_true'] at hex
        have hne : ∃ p ∈ kvs', isFieldKey info.fields p.1 = false := by
          cases hx : extraKeys info kvs' with
          | nil => rw [hx] at hex; simp at hex
          | cons a l =>
            have : a ∈ extraKeys info kvs' := by rw [hx]; simp
            unfold extraKeys at this
            simp only [List.mem_filter, List.mem_map, Bool.not_eq_true'] at this
            obtain ⟨⟨p, hp, rfl⟩, h2⟩ := this
            exact ⟨p, hp, h2⟩
        split
        · exact Sat.throw (.extra hi hmg hex.1 hne)
        · rename_i hall
          refine Sat.throw (.extraKey hi hmg hex.1 ?_)
          simp only [List.all_eq_true, Classical.not_forall] at hall
          obtain ⟨k, hk, hk'⟩ := hall
          unfold extraKeys at hk
          simp only [List.mem_filter, List.mem_map] at hk
          obtain ⟨⟨q, hq, rfl⟩, _⟩ := hk
          refine ⟨q, hq, ?_⟩
          cases hs : strKey q.1 with
          | none => rfl
          | some m => rw [strKey_eq] at hs; rw [hs] at hk'; simp [typeOf] at hk'
      · rw [if_neg hex]
        have hextra : C.failonextra = true → ∀ p ∈ kvs', isFieldKey info.fields p.1 = true := by
          intro hf p hp
          simp only [hf, Bool.true_and, Bool.not_eq_true', Bool.not_eq_false, List.isEmpty_iff] at hex
          cases hq : isFieldKey info.fields p.1 with
          | true => rfl
          | false =>
            have : p.1 ∈ extraKeys info kvs' := by
              unfold extraKeys
              simp only [List.mem_filter, List.mem_map, Bool.not_eq_true']
              exact ⟨⟨p, hp, rfl⟩, hq⟩
            rw [hex] at this; cases this
        refine Sat.bind (Sat.objFields hrec hi hg _ _ kvs' []) ?_ (fun e he => .field hi hmg hnec' he)
        intro params hpar
        cases hcon : construct W c params with
        | ok r => exact Sat.pure (.ok hi hmg hnec' hextra hpar hcon)
        | error x =>
          have := ObjSem.construct hi hmg hnec' hpar hcon
          dsimp only
          split
          · rename_i h1; exact Sat.throw (by simpa [constructExc, h1] using this)
          · split
            · rename_i h1 h2; exact Sat.throw (by simpa [constructExc, h1, h2] using this)
            · rename_i h1 h2; exact Sat.throw (by simpa [constructExc, h1, h2] using this)
    · have hnec' : info.necessary.all (fun n => dhas kvs' (.str n)) = false := by simpa using hnec
      rw [if_pos (by rw [hnec']; rfl)]
      refine Sat.throw (.missing hi hmg ?_)
      simp only [List.all_eq_true, Classical.not_forall] at hnec
      obtain ⟨f, hf, hf'⟩ := hnec
      exact ⟨f, hf, fun h => hf' ((dhas_str kvs' f).2 h)⟩

omit hcl in
theorem Sat.mangled {c : Nat} {info : ObjInfo} (hi : InfoFor W C c info) (hg : ∀ f ∈ (W.cls c).fields, ∀ t, FieldTy (W.cls c).kind f t → G t)
    (v : Val) : Sat W C F (mangleOrRaise C info.transforms v (.obj c) >>= fun v' => TL.objloader W C rec info v' c) (ObjSem W C P v c) := by
  unfold mangleOrRaise
  cases hm : mangle_names info.transforms v C.failonextra with
  | ok v' =>
    show Sat W C F (TL.objloader W C rec info v' c) _
    exact Sat.objloader hrec hi hg (mangle_names_ok hm)
  | error x =>
    obtain ⟨h1, h2⟩ := mangle_names_error hm
    refine Sat.bind (Q := fun o => ∃ e, o = .error e ∧ MangleErr C info.transforms v e ∧ ∃ cl m, cl.isTL = true ∧ e = mkExc cl m v (.obj c)) ?_ ?_ ?_
    · rcases h2 with ⟨h2, rfl⟩ | ⟨h2, rfl, h3⟩
      · exact Sat.throw ⟨_, rfl, ⟨h1, Or.inl ⟨h2, rfl⟩⟩, _, _, rfl, rfl⟩
      · exact Sat.throw ⟨_, rfl, ⟨h1, Or.inr ⟨h2, rfl, h3⟩⟩, _, _, rfl, rfl⟩
    · rintro a ⟨e, h, _⟩; cases h
    · rintro e ⟨e', h, h3, h4⟩; cases h; exact .mangle hi h3 h4

theorem Sat.objhandler (c : Nat) (hg : G (.obj c)) (v : Val) :
    Sat W C F (TL.step W C rec (objHandler (W.cls c).kind) v (.obj c)) (ObjSem W C P v c) := by
  have hgf := hcl.field c hg
  cases hk : (W.cls c).kind with
  | namedtuple =>
    show Sat W C F (namedtupleload W C rec v (.obj c)) _
    rw [namedtupleload_eq _ hk]
    exact Sat.objloader hrec (infoFor_namedtuple hk) hgf (Or.inl ⟨rfl, rfl⟩)
  | typeddict =>
    show Sat W C F (typeddictload W C rec v (.obj c)) _
    rw [typeddictload_eq _ hk]
    refine Sat.bind (Q := fun o => ∃ a, o = .ok a) (fun s hs => ⟨hs, s, rfl⟩) ?_ (fun e he => by obtain ⟨_, h⟩ := he; cases h)
    · intro s0 _
      refine Sat.bind (Q := fun o => ∃ a, o = .ok a) ?_ ?_ (fun e he => by obtain ⟨_, h⟩ := he; cases h)
      · apply Sat.of_post
        intro s hs
        rw [post_modify]
        unfold rewriteAnnotations
        split
        · exact ⟨⟨Ext.rew, rfl⟩, _, rfl⟩
        · exact ⟨⟨Ext.refl s, rfl⟩, _, rfl⟩
      · intro _ _
        exact Sat.objloader hrec (infoFor_typeddict hk _) hgf (Or.inl ⟨rfl, rfl⟩)
  | dataclass =>
    show Sat W C F (dataclassload W C rec v (.obj c)) _
    rw [dataclassload_eq _ hk]
    refine Sat.bind (Q := fun o => o = .ok (dataclassInfo C (W.cls c))) ?_ ?_ (fun _ h => by cases h)
    · apply Sat.of_post
      intro s hs
      unfold dataclassCached
      rw [post_bind, post_get]
      cases ho : aget s.objc c with
      | some i => exact ⟨⟨Ext.refl s, rfl⟩, by rw [hs.coh.objc c i ho]⟩
      | none => exact ⟨⟨Ext.objc ho, rfl⟩, rfl⟩
    · intro i h; cases h
      exact Sat.mangled hrec (infoFor_dataclass hk) hgf v
  | attrs =>
    show Sat W C F (attrload W C rec v (.obj c)) _
    rw [attrload_eq _ hk]
    cases hh : attrHints (W.cls c).fields with
    | error x =>
      have := attrHints_error _ _ hh
      subst this
      exact Sat.throw (.stop hk hh)
    | ok hints => exact Sat.mangled hrec (infoFor_attrs hk hh) hgf v

theorem Sat.unionTry (v : Val) (t : Ty) (us : List Ty) : ∀ (c : Nat) (r : Val) (es : List Exc), (∀ u ∈ us, G u) →
    Sat W C F (unionTry W C rec v t us c r es) (TrySem W C P v t us c r es) := by
  induction us with
  | nil => intro c r es _; exact Sat.pure .nil
  | cons u us ih =>
    intro c r es hg
    unfold TL.unionTry
    have hcall : Sat W C F (do let h ← TL.resolve W C u (mkExc .tlValue (.noHandlerIn u t) v u); rec h v u : L Val)
        (CallSem W C P (mkExc .tlValue (.noHandlerIn u t) v u) v u) := by
      refine Sat.bind (Sat.resolve u _) ?_ ?_
      · intro h hp
        have hp : pick W C u = .ok h := by
          cases hp2 : pick W C u with
          | error c => rw [hp2] at hp; cases hp
          | ok h2 => rw [hp2] at hp; cases hp; rfl
        exact (hrec h v u (pick_installed hp) (hg u (by simp))).mono (fun o ho => .call hp ho)
      · intro e he
        cases hp : pick W C u with
        | error c => rw [hp] at he; cases he; exact .noHandler hp
        | ok h2 => rw [hp] at he; cases he
    have hg' : ∀ u' ∈ us, G u' := fun u' hu' => hg u' (by simp [hu'])
    refine Sat.handle hcall ?_ ?_
    · intro x hx
      split
      · rename_i hdbg; exact (ih (c + 1) x es hg').mono (fun o ho => .count hx hdbg ho)
      · rename_i hdbg; exact Sat.pure (.win hx (by simpa using hdbg))
    · intro e he
      split
      · rename_i htl; exact (ih c r _ hg').mono (fun o ho => .refuse he htl ho)
      · rename_i htl; exact Sat.throw (.crash he (by simpa using htl))

omit hcl hrec in
theorem Sat.unionOrder (v : Val) (ts : List Ty) : Sat W C F (TL.unionOrder W C v ts) (fun o => match o with
    | .ok order => TryOrder W C v ts order
    | .error e => e = Exc.plain .type ∧ UnhashableTag W v ts) := by
  apply Sat.of_post
  intro s hs
  have h1 := post_unionOrder (v := v) (ts := ts) hs.coh
  have h2 : Post (TL.unionOrder W C v ts) s (fun _ s' => s'.frefs = s.frefs) (fun e s' => s'.frefs = s.frefs ∧ e = Exc.plain .type) := by
    unfold TL.unionOrder
    split
    · rw [post_bind]
      have : Post (discCached W ts) s (fun _ s' => s'.frefs = s.frefs) (fun _ _ => False) := by
        unfold discCached
        rw [post_bind, post_get]
        split
        · rfl
        · rfl
      refine this.mono ?_ (fun _ _ h => h.elim)
      intro d s' hf
      split
      · exact hf
      · split
        · exact hf
        · split
          · split <;> exact hf
          · exact ⟨hf, rfl⟩
    · rfl
  exact (h1.and h2).mono (fun a s' h => ⟨⟨h.1.1, h.2⟩, h.1.2⟩) (fun e s' h => ⟨⟨h.1.1, h.2.1⟩, h.2.2, h.1.2.2⟩)

theorem Sat.unionload (v : Val) (t : Ty) (hg : G t) : Sat W C F (unionload W C rec v t) (StepSem W C F P .unionload v t) := by
  unfold TL.unionload
  split
  · rename_i ts
    by_cases hb : (C.isBasic (typeOf v) && ts.contains (typeOf v)) = true
    · rw [if_pos hb]
      simp only [Bool.and_eq_true, List.contains_iff_mem] at hb
      exact Sat.pure (.unionBasic hb)
    · rw [if_neg hb]
      have hne : ¬ ExactBasic C v ts := by
        intro h; apply hb; simp only [Bool.and_eq_true, List.contains_iff_mem]; exact h
      refine Sat.bind (Sat.unionOrder v ts) ?_ ?_
      · intro order hord
        have hgo : ∀ u ∈ order, G u := fun u hu => hcl.union ts hg u (hord.perm.mem_iff.1 hu)
        refine Sat.bind (Sat.unionTry hcl hrec v (.union ts) order 0 .none [] hgo) ?_ (fun e he => .unionCrash hne hord he)
        rintro ⟨c, r, es⟩ hres
        dsimp only
        match c, hres with
        | 0, hres => exact Sat.throw (.unionNone hne hord hres)
        | 1, hres => exact Sat.pure (.unionOne hne hord hres)
        | n + 2, hres =>
          rw [if_neg (by omega), if_neg (by omega)]
          exact Sat.throw (.unionMany hne hord hres)
      · rintro e ⟨rfl, htag⟩; exact .unionTag htag
  · rename_i hne
    refine Sat.throw (.mismatch rfl ?_)
    cases t <;> first | rfl | exact absurd rfl (hne _)

theorem Sat.enumHints (v : Val) (e : Nat) (us : List Ty) : ∀ (es : List Exc), (∀ u ∈ us, G u) →
    Sat W C F (enumHints W C rec v e us es) (HintsSem W C P v e us es) := by
  induction us with
  | nil => intro es _; exact Sat.throw .nil
  | cons u us ih =>
    intro es hg
    unfold TL.enumHints
    refine Sat.rescue (Q := fun o => match o with
      | .ok m => ∃ x, LoadSem W C P v u (some (.union u)) (.ok x) ∧ enumCall W e x = some m
      | .error ex => LoadSem W C P v u (some (.union u)) (.error ex) ∨
          ∃ x, LoadSem W C P v u (some (.union u)) (.ok x) ∧ enumCall W e x = none ∧ ex = .plain .value) ?_ ?_ ?_
    · refine Sat.bind (Sat.loadWith hcl hrec v (hg u (by simp)) _) ?_ (fun ex he => Or.inl he)
      intro x hx
      split
      · rename_i m hm; exact Sat.pure ⟨x, hx, hm⟩
      · rename_i hm; exact Sat.throw (Or.inr ⟨x, hx, hm, rfl⟩)
    · rintro m ⟨x, hx, hm⟩; exact .ok hx hm
    · intro ex hex
      refine (ih (es ++ [ex]) (fun u' hu' => hg u' (by simp [hu']))).mono ?_
      intro o ho
      rcases hex with he | ⟨x, hx, hm, rfl⟩
      · exact .err he ho
      · exact .noMember hx hm ho

theorem Sat.enumload (v : Val) (t : Ty) (hg : G t) : Sat W C F (enumload W C rec v t) (StepSem W C F P .enumload v t) := by
  unfold TL.enumload
  split
  · rename_i e
    split
    · rename_i m hm; exact Sat.pure (.enumMember hm)
    · rename_i hm
      exact (Sat.enumHints hcl hrec v e _ [] (hcl.enum e hg)).mono (fun o ho => .enumHints hm ho)
  · rename_i hne
    refine Sat.throw (.mismatch rfl ?_)
    cases t <;> first | rfl | exact absurd rfl (hne _)

omit hcl hrec in
theorem leaf_lift {h : Handler} (hl : h.isLeaf = true) (v : Val) (t : Ty) : ∃ o, ∀ rec : Rec, step W C rec h v t = M.lift o := by
  have thr : ∀ e : Exc, (M.throw e : L Val) = M.lift (.error e) := fun _ => rfl
  have pur : ∀ x : Val, (pure x : L Val) = M.lift (.ok x) := fun _ => rfl
  cases h <;> first | cases hl | skip
  all_goals simp only [step, noneload, basicload, literalload, datetimeload, patternload, timedeltaload, strconstructload, anyload]
  all_goals repeat' split
  all_goals first
    | exact ⟨_, fun _ => thr _⟩
    | exact ⟨_, fun _ => pur _⟩
    | exact ⟨_, fun _ => rfl⟩

theorem Sat.script (p : Script) (hp : ∀ x u, p.Asks x u → G u) : Sat W C F (p.run (TL.loadWith W C rec)) (ScriptSem W C P p) := by
  induction p with
  | ret v => exact Sat.pure .ret
  | raise e => exact Sat.throw .raise
  | call v t a next ih =>
    refine Sat.handle (Sat.loadWith hcl hrec v (hp v t .here) a) (fun r hr => ?_) (fun e he => ?_)
    · exact (ih (.ok r) (fun x u h => hp x u (.later h))).mono (fun o ho => .call hr ho)
    · exact (ih (.error e) (fun x u h => hp x u (.later h))).mono (fun o ho => .call he ho)

/-- Every outcome of a handler call is described by `StepSem`. -/
theorem Sat.step (h : Handler) (v : Val) (t : Ty) (hin : Installed C h) (hg : G t) : Sat W C F (TL.step W C rec h v t) (StepSem W C F P h v t) := by
  have leaf : h.isLeaf = true → Sat W C F (TL.step W C rec h v t) (StepSem W C F P h v t) := by
    intro hl
    obtain ⟨o, ho⟩ := leaf_lift (W := W) (C := C) hl v t
    rw [ho rec]
    exact Sat.lift (.leaf hl ho)
  have objc : ∀ k : ObjKind, h = objHandler k → (∀ c, t = .obj c → (W.cls c).kind = k → Sat W C F (TL.step W C rec h v t) (StepSem W C F P h v t)) := by
    intro k hh c hc hk
    subst hh hc hk
    exact (Sat.objhandler hcl hrec c hg v).mono (fun o ho => .obj ho)
  cases h with
  | unionload => exact Sat.unionload hcl hrec v t hg
  | enumload => exact Sat.enumload hcl hrec v t hg
  | tupleload => exact Sat.tupleload hcl hrec v t hg
  | listload =>
    refine Sat.iterload hcl hrec rfl (fun _ _ => Or.inr trivial) v t hg ?_
    intro hne; cases t <;> first | rfl | exact absurd rfl (hne _ _)
  | setload =>
    refine Sat.iterload hcl hrec rfl (fun _ _ => Or.inr trivial) v t hg ?_
    intro hne; cases t <;> first | rfl | exact absurd rfl (hne _ _)
  | frozensetload =>
    refine Sat.iterload hcl hrec rfl (fun _ _ => Or.inr trivial) v t hg ?_
    intro hne; cases t <;> first | rfl | exact absurd rfl (hne _ _)
  | dictload => exact Sat.dictload hcl hrec v t hg
  | forwardrefload => exact Sat.forwardrefload hcl hrec v t
  | newtypeload => exact Sat.newtypeload hcl hrec v t hg
  | namedtupleload =>
    cases t with
    | obj c =>
      by_cases hk : (W.cls c).kind = .namedtuple
      · exact objc _ rfl c rfl hk
      · simp only [TL.step, namedtupleload, if_neg hk]
        exact Sat.throw (.mismatch rfl (by simp [suits, hk]))
    | _ => exact Sat.throw (.mismatch rfl rfl)
  | dataclassload =>
    cases t with
    | obj c =>
      by_cases hk : (W.cls c).kind = .dataclass
      · exact objc _ rfl c rfl hk
      · simp only [TL.step, dataclassload, if_neg hk]
        exact Sat.throw (.mismatch rfl (by simp [suits, hk]))
    | _ => exact Sat.throw (.mismatch rfl rfl)
  | attrload =>
    cases t with
    | obj c =>
      by_cases hk : (W.cls c).kind = .attrs
      · exact objc _ rfl c rfl hk
      · simp only [TL.step, attrload, if_neg hk]
        exact Sat.throw (.mismatch rfl (by simp [suits, hk]))
    | _ => exact Sat.throw (.mismatch rfl rfl)
  | typeddictload =>
    cases t with
    | obj c =>
      by_cases hk : (W.cls c).kind = .typeddict
      · exact objc _ rfl c rfl hk
      · simp only [TL.step, typeddictload, if_neg hk]
        exact Sat.throw (.mismatch rfl (by simp [suits, hk]))
    | _ => exact Sat.throw (.mismatch rfl rfl)
  | custom i => exact (Sat.script hcl hrec _ (hcl.custom i hin v t hg)).mono (fun o ho => .custom hin ho)
  | _ => exact leaf rfl
end steps

/-- **Induction over handler calls**: a property of outcomes that each step passes on holds of all outcomes. -/
theorem Sat.run (hcl : Closed W C G F) {P : Handler → Val → Ty → Except Exc Val → Prop}
    (hstep : ∀ h v t o, G t → StepSem W C F P h v t o → P h v t o) (n : Nat) :
    ∀ h v t, Installed C h → G t → Sat W C F (run W C n h v t) (P h v t) := by
  induction n with
  | zero => intro h v t _ _ s _; trivial
  | succ n ih => exact fun h v t hin hg => (Sat.step hcl ih h v t hin hg).mono (hstep h v t · hg)

/-- The initial names are in `F`. -/
theorem Reachable.good {s : LState} (hs : Reachable W C s) (hF : ∀ n t, Bound s n t → F n t) (hk : ∀ n t, F.has n t → Bound s n t) :
    Good W C F s := ⟨hs.coh, hF, hk⟩

theorem Loads.sem (hcl : Closed W C G F) {P : Handler → Val → Ty → Except Exc Val → Prop}
    (hstep : ∀ h v t o, G t → StepSem W C F P h v t o → P h v t o) {s : LState} (hs : Good W C F s) {v : Val} {t : Ty} (hg : G t) {r : Val}
    {s' : LState} (h : Loads W C s v t r s') : ∃ hh, pick W C t = .ok hh ∧ P hh v t (.ok r) := by
  obtain ⟨n, hh, hp, hr⟩ := (loads_iff hs.coh).1 h
  exact ⟨hh, hp, ((Sat.run hcl hstep n hh v t (pick_installed hp) hg _ (hs.cacheReg hcl hg hp)).ok hr).2⟩

theorem Raises.sem (hcl : Closed W C G F) {P : Handler → Val → Ty → Except Exc Val → Prop}
    (hstep : ∀ h v t o, G t → StepSem W C F P h v t o → P h v t o) {s : LState} (hs : Good W C F s) {v : Val} {t : Ty} (hg : G t) {e : Exc}
    {s' : LState} (h : Raises W C s v t e s') :
    (∃ hh e', pick W C t = .ok hh ∧ P hh v t (.error e') ∧ e = loadExc v t none e') ∨
    (∃ c, pick W C t = .error c ∧ e = lookupExc (mkExc .tlType (.noHandler t) v t) c) := by
  rcases (raises_iff hs.coh).1 h with ⟨n, hh, e', hp, hr, rfl⟩ | ⟨c, hp, rfl, _⟩
  · exact Or.inl ⟨hh, e', hp, ((Sat.run hcl hstep n hh v t (pick_installed hp) hg _ (hs.cacheReg hcl hg hp)).err hr).2, rfl⟩
  · exact Or.inr ⟨c, hp, rfl⟩

end TL
