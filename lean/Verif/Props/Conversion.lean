import Verif.Lemmas.Conversion
import Verif.Props.ThreadsSound
/-!
# C73: the result is the data, converted place by place
-/

namespace TL

variable {W : World} {C : Config}

/-- **C73** with handlers added by the user (partial). What `load(v, t)` returns is the data `v` converted place by place: every part of the result is the conversion of the part of the
data at the corresponding place, or a declared default for which the data has no key, and nothing of the data is lost except unknown keys (and
repeated elements of sets).  For every value, type, handler list that serves the types met while loading
as the default list does (handlers added by the user for other types make no difference) and whose conditions do not raise, and history of the loader.
Missing: types containing a `Dict[K, V]` for which the handler mix-up of `_dictload` matters (`C73_mixup_counterexample`), and
constructors that raise StopIteration (`C15_truncation_counterexample`). -/
theorem C73_user_partial (hcc : CalmConditions W C) (hW : W.NeverStops) {s s' : LState} (hs : Reachable W C s) {v : Val} {t : Ty} {r : Val}
    (hus : ∀ u, Meets W C s t u → C.Usual W u) (hsafe : ∀ kt vt, Meets W C s t (.dict kt vt) → DictSafe C kt vt)
    (hw : ∀ c, Meets W C s t (.obj c) → WFNames C (W.cls c).kind (W.cls c).fields)
    (hatt : ∀ c, Meets W C s t (.obj c) → (W.cls c).kind = .attrs → ∀ f ∈ (W.cls c).fields, ∃ u, FieldTy .attrs f u)
    (hv : KeysDistinct C v) (h : Loads W C s v t r s') : Converts W C (Known W s) v t r := by
  obtain ⟨hh, hp, hP⟩ := h.sem (Meets.closed s t)
    (fun h v t o hg hs => conversion_step (F' := Known W s) hcc hW (fun _ _ _ h => And.right h) hus
      (fun kt vt hg => (hsafe kt vt hg).pick_usual (hus _ (.dictKey hg)) (hus _ (.dictVal hg))) hw hatt h v t o hg hs) (hs.good_meets t) .self
  exact (hP hp hv).1 r rfl

/-- **C73** with handlers added by the user (partial). The same when any number of threads share the loader, each making one call, however their accesses are interleaved.
Missing: as in `C73_conversion_partial`. -/
theorem C73_user_threads_partial (hcc : CalmConditions W C) (hW : W.NeverStops) {s : LState} (hs : Reachable W C s) {jobs : List Job}
    (hus : ∀ j ∈ jobs, ∀ u, Meets W C s j.type u → C.Usual W u) (hsafe : ∀ j ∈ jobs, ∀ kt vt, Meets W C s j.type (.dict kt vt) → DictSafe C kt vt)
    (hw : ∀ j ∈ jobs, ∀ c, Meets W C s j.type (.obj c) → WFNames C (W.cls c).kind (W.cls c).fields)
    (hatt : ∀ j ∈ jobs, ∀ c, Meets W C s j.type (.obj c) → (W.cls c).kind = .attrs → ∀ f ∈ (W.cls c).fields, ∃ u, FieldTy .attrs f u)
    {c : Conf} (hc : (Conf.start W C s jobs).Steps c) {i : Nat} {j : Job} (hj : jobs[i]? = some j) (hv : KeysDistinct C j.value)
    {r : Val} (hr : c.threads[i]? = some (.ret r)) : Converts W C (Known W s) j.value j.type r := by
  obtain ⟨hh, hp, hP⟩ := (Conf.Steps.sem hs
    (fun h v t o hg hs => conversion_step (F' := Known W s) hcc hW (fun _ _ _ h => And.right h) (fun u => fun ⟨j, hj, h⟩ => hus j hj u h)
      (fun k v => fun ⟨j, hj, h⟩ => (hsafe j hj k v h).pick_usual (hus j hj _ (.dictKey h)) (hus j hj _ (.dictVal h)))
      (fun c => fun ⟨j, hj, h⟩ => hw j hj c h) (fun c => fun ⟨j, hj, h⟩ => hatt j hj c h) h v t o hg hs) hc hj).1 r hr
  exact (hP hp hv).1 r rfl

/-- **C73** (partial). What `load(v, t)` returns is the data `v` converted place by place: every part of the result is the conversion of the part of the
data at the corresponding place, or a declared default for which the data has no key, and nothing of the data is lost except unknown keys (and
repeated elements of sets).  For every value, type, configuration with the default handlers and history of the loader.
Missing: types containing a `Dict[K, V]` for which the handler mix-up of `_dictload` matters (`C73_mixup_counterexample`), and
constructors that raise StopIteration (`C15_truncation_counterexample`). -/
theorem C73_conversion_partial (hd : C.Default) (hW : W.NeverStops) {s s' : LState} (hs : Reachable W C s) {v : Val} {t : Ty} {r : Val}
    (hsafe : ∀ kt vt, Meets W C s t (.dict kt vt) → DictSafe C kt vt)
    (hw : ∀ c, Meets W C s t (.obj c) → WFNames C (W.cls c).kind (W.cls c).fields)
    (hatt : ∀ c, Meets W C s t (.obj c) → (W.cls c).kind = .attrs → ∀ f ∈ (W.cls c).fields, ∃ u, FieldTy .attrs f u)
    (hv : KeysDistinct C v) (h : Loads W C s v t r s') : Converts W C (Known W s) v t r :=
  C73_user_partial hd.calm hW hs (fun _ _ => hd.usual) hsafe hw hatt hv h

/-- **C73** (partial). The same when any number of threads share the loader, each making one call, however their accesses are interleaved.
Missing: as in `C73_conversion_partial`. -/
theorem C73_threads_partial (hd : C.Default) (hW : W.NeverStops) {s : LState} (hs : Reachable W C s) {jobs : List Job}
    (hsafe : ∀ j ∈ jobs, ∀ kt vt, Meets W C s j.type (.dict kt vt) → DictSafe C kt vt)
    (hw : ∀ j ∈ jobs, ∀ c, Meets W C s j.type (.obj c) → WFNames C (W.cls c).kind (W.cls c).fields)
    (hatt : ∀ j ∈ jobs, ∀ c, Meets W C s j.type (.obj c) → (W.cls c).kind = .attrs → ∀ f ∈ (W.cls c).fields, ∃ u, FieldTy .attrs f u)
    {c : Conf} (hc : (Conf.start W C s jobs).Steps c) {i : Nat} {j : Job} (hj : jobs[i]? = some j) (hv : KeysDistinct C j.value)
    {r : Val} (hr : c.threads[i]? = some (.ret r)) : Converts W C (Known W s) j.value j.type r :=
  C73_user_threads_partial hd.calm hW hs (fun _ _ _ _ => hd.usual) hsafe hw hatt hc hj hv hr

/-- The mix-up of `_dictload`: a fresh loader returns for `Dict[U, int]`, with `U` a NewType of int, the string key of the data as it is. -/
theorem C73_mixup_counterexample : ∃ r s', Loads Sample.W Sample.C (fresh []) (.dict [(.str "x", .int 1)]) (.dict Sample.U (.prim .int)) r s' ∧
    ¬ Converts Sample.W Sample.C (Known Sample.W (fresh [])) (.dict [(.str "x", .int 1)]) (.dict Sample.U (.prim .int)) r := by
  obtain ⟨s', h⟩ := C17_mixup_counterexample.1
  refine ⟨_, s', h, ?_⟩
  have key : ∀ r, ¬ Converts Sample.W Sample.C (Known Sample.W (fresh [])) (.dict [(.str "x", .int 1)]) (.dict Sample.U (.prim .int)) r := ?_
  · exact key _
  intro r ht
  cases ht with
  | @dict _ _ _ l hd hk _ _ =>
    rcases hd with hd | ⟨_, hd, _⟩
    · cases l with
      | nil => cases hd
      | cons q l =>
        have h1 : q.1.1 = .str "x" := by simp at hd; rw [← hd.1]
        have := hk q (by simp)
        rw [h1] at this
        generalize q.2.1 = y at this
        cases this with
        | conv this => cases this with
          | newtype this => cases this with
            | exact _ h => cases h
            | cast _ _ _ _ h => cases h
    · cases hd

/-- The sample world never raises StopIteration. -/
theorem Sample.neverStops : Sample.W.NeverStops where
  iso _ _ := by simp [Sample.W]
  re v := by show (if v = .str "(" then Except.error ExcClass.reError else .ok ()) ≠ _; split <;> simp
  td f := by
    cases f with
    | fin k =>
      show (if validTimedelta (k * 1000000 / fscale) then Except.ok (k * 1000000 / fscale) else .error ExcClass.overflow) ≠ _
      split <;> simp
    | _ => simp [Sample.W]
  init _ _ := by simp [Sample.W]

/-- Data with distinct keys. -/
theorem Sample.keysDistinct : KeysDistinct Sample.C (.dict [(.str "k", .tuple [.dict [(.str "x", .str "5"), (.str "zed", .str "q")]])]) := by
  intro x kvs hx hd
  have key : ∀ x, Within (.dict [(.str "k", .tuple [.dict [(.str "x", .str "5"), (.str "zed", .str "q")]])]) x →
      x = .dict [(.str "k", .tuple [.dict [(.str "x", .str "5"), (.str "zed", .str "q")]])] ∨ x = .tuple [.dict [(.str "x", .str "5"), (.str "zed", .str "q")]] ∨
      x = .dict [(.str "x", .str "5"), (.str "zed", .str "q")] ∨ ∃ y, x = .str y := by
    intro x hx
    induction hx with
    | self => simp
    | elem h hi hm ih =>
      rcases ih with rfl | rfl | rfl | ⟨y, rfl⟩ <;> simp [pyIter] at hi <;> subst hi
      · simp at hm; simp [hm]
      · simp at hm; simp [hm]
      · simp at hm; rcases hm with rfl | rfl <;> simp
      · simp at hm; obtain ⟨c, _, rfl⟩ := hm; simp
    | value h hv ih =>
      rcases ih with rfl | rfl | rfl | ⟨y, rfl⟩ <;> rcases hv with ⟨kvs, k, h1, h2⟩ | ⟨kvs, k, h1, h2⟩ <;> cases h1 <;> simp at h2
      · simp [h2]
      · rcases h2 with h2 | h2 <;> simp [h2]
    | name h hm ih => rcases ih with ih | ih | ih | ⟨y, ih⟩ <;> cases ih
  rcases key x hx with rfl | rfl | rfl | ⟨y, rfl⟩ <;> rcases hd with hd | ⟨fs, hd, _⟩ <;> cases hd <;> decide

/-- The types met when loading into `Dict[str, List[P]]`. -/
theorem Sample.meets_dict {u : Ty} (h : Meets Sample.W Sample.C (fresh []) (.dict (.prim .str) (.coll .list (.obj 0))) u) :
    u = .dict (.prim .str) (.coll .list (.obj 0)) ∨ u = .coll .list (.obj 0) ∨ u = .obj 0 ∨ u = .prim .str ∨ u = .prim .int := by
  induction h with
  | self => simp
  | known h => obtain ⟨fr, h1, h2⟩ := h; cases h1; cases h2
  | coll _ ih => simp at ih; simp [ih]
  | tuple _ _ ih => simp at ih
  | dictKey _ ih => simp at ih; simp [ih]
  | dictVal _ ih => simp at ih; simp [ih]
  | union _ _ ih => simp at ih
  | newtype _ ih => simp at ih
  | enum _ _ ih => simp at ih
  | custom hi _ _ => exact absurd hi (not_installed (C := Sample.C) rfl _)
  | field _ hf ht ih =>
    simp at ih; subst ih
    have hf' : _ ∈ Sample.clsP.fields := hf
    simp only [Sample.clsP, List.mem_cons, List.not_mem_nil, or_false] at hf'
    cases ht with
    | declared => rcases hf' with rfl | rfl | rfl <;> simp
    | converter _ h => cases h
    | untyped _ h => cases h
    | manyHints _ h => cases h

/-- The hypotheses of C73: a dictionary of lists of objects, with conversions, a mangled name and a default. -/
example : Sample.C.Default ∧ Sample.W.NeverStops ∧ Reachable Sample.W Sample.C (fresh []) ∧
    (∀ kt vt, Meets Sample.W Sample.C (fresh []) (.dict (.prim .str) (.coll .list (.obj 0))) (.dict kt vt) → DictSafe Sample.C kt vt) ∧
    (∀ c, Meets Sample.W Sample.C (fresh []) (.dict (.prim .str) (.coll .list (.obj 0))) (.obj c) →
      WFNames Sample.C (Sample.W.cls c).kind (Sample.W.cls c).fields) ∧
    (∀ c, Meets Sample.W Sample.C (fresh []) (.dict (.prim .str) (.coll .list (.obj 0))) (.obj c) → (Sample.W.cls c).kind = .attrs →
      ∀ f ∈ (Sample.W.cls c).fields, ∃ u, FieldTy .attrs f u) ∧
    KeysDistinct Sample.C (.dict [(.str "k", .tuple [.dict [(.str "x", .str "5"), (.str "zed", .str "q")]])]) ∧
    ∃ s', Loads Sample.W Sample.C (fresh [])
      (.dict [(.str "k", .tuple [.dict [(.str "x", .str "5"), (.str "zed", .str "q")]])])
      (.dict (.prim .str) (.coll .list (.obj 0)))
      (.dict [(.str "k", .list [.inst 0 [("x", .int 5), ("z", .str "q"), ("y", .int 5)]])]) s' := by
  refine ⟨rfl, Sample.neverStops, .new _ _, fun kt vt h => ?_, fun c h => ?_, fun c h => ?_, Sample.keysDistinct, _, 8, rfl⟩
  · rcases Sample.meets_dict h with h | h | h | h | h <;> cases h
    exact Or.inl rfl
  · rcases Sample.meets_dict h with h | h | h | h | h <;> cases h
    constructor <;> decide
  · rcases Sample.meets_dict h with h | h | h | h | h <;> cases h
    intro h; cases h

/-- Any number of threads load such data into `Dict[str, List[P]]` with a new loader. -/
example (jobs : List Job) (hjobs : ∀ j ∈ jobs, j.type = .dict (.prim .str) (.coll .list (.obj 0)) ∧
      j.value = .dict [(.str "k", .tuple [.dict [(.str "x", .str "5"), (.str "zed", .str "q")]])])
    (c : Conf) (hc : (Conf.start Sample.W Sample.C (fresh []) jobs).Steps c) (i : Nat) (j : Job) (hj : jobs[i]? = some j) (r : Val)
    (hr : c.threads[i]? = some (.ret r)) : Converts Sample.W Sample.C (Known Sample.W (fresh [])) j.value j.type r := by
  refine C73_threads_partial (s := fresh []) (show Sample.C.Default from rfl) Sample.neverStops (.new (some []) []) (fun j hj kt vt h => ?_)
    (fun j hj c h => ?_) (fun j hj c h => ?_) hc hj ?_ hr
  · rw [(hjobs j hj).1] at h
    rcases Sample.meets_dict h with h | h | h | h | h <;> cases h
    exact Or.inl rfl
  · rw [(hjobs j hj).1] at h
    rcases Sample.meets_dict h with h | h | h | h | h <;> cases h
    constructor <;> decide
  · rw [(hjobs j hj).1] at h
    rcases Sample.meets_dict h with h | h | h | h | h <;> cases h
    intro h; cases h
  · rw [(hjobs j (List.mem_of_getElem? hj)).2]; exact Sample.keysDistinct

/-- What is met when a loader with a handler of the user loads a list of optional integers. -/
theorem Sample.meets_optional {u : Ty} (h : Meets Sample.WB Sample.CB (fresh []) (.coll .list (.union [.prim .int, .prim .none])) u) :
    u = .coll .list (.union [.prim .int, .prim .none]) ∨ u = .union [.prim .int, .prim .none] ∨ u = .prim .int ∨ u = .prim .none := by
  induction h with
  | known h => obtain ⟨fr, h1, h2⟩ := h; simp [fresh] at h1; subst h1; cases h2
  | @custom i x u y w hi _ ha ih =>
    have ha : (Sample.callback x u).Asks y w := ha
    rcases ih with rfl | rfl | rfl | rfl <;> cases ha
  | _ => simp_all

/-- C73: with a handler of the user, for other types, a list of optional integers is converted place by place. -/
example : ∃ r s',
    Loads Sample.WB Sample.CB (fresh []) (.list [.str "5", .none]) (.coll .list (.union [.prim .int, .prim .none])) r s' ∧
    Converts Sample.WB Sample.CB (Known Sample.WB (fresh [])) (.list [.str "5", .none]) (.coll .list (.union [.prim .int, .prim .none])) r := by
  have hl : ∃ r s', Loads Sample.WB Sample.CB (fresh []) (.list [.str "5", .none]) (.coll .list (.union [.prim .int, .prim .none])) r s' := ⟨_, _, 9, rfl⟩
  obtain ⟨r, s', hl⟩ := hl
  have hv : KeysDistinct Sample.CB (.list [.str "5", .none]) := by
    intro x kvs hx hd
    have key : ∀ x, Within (.list [.str "5", .none]) x → x = .list [.str "5", .none] ∨ x = .none ∨ ∃ y, x = .str y := by
      intro x hx
      induction hx with
      | self => simp
      | elem h hi hm ih =>
        rcases ih with rfl | rfl | ⟨y, rfl⟩ <;> simp [pyIter] at hi <;> subst hi
        · simp at hm; rcases hm with rfl | rfl <;> simp
        · simp at hm; obtain ⟨c, _, rfl⟩ := hm; simp
      | value h hv ih => rcases ih with rfl | rfl | ⟨y, rfl⟩ <;> rcases hv with ⟨kvs, k, h1, h2⟩ | ⟨kvs, k, h1, h2⟩ <;> cases h1
      | name h hv ih => simp
    rcases key x hx with rfl | rfl | ⟨y, rfl⟩ <;> rcases hd with hd | ⟨_, hd, _⟩ <;> cases hd
  refine ⟨r, s', hl, C73_user_partial Sample.calmB ⟨Sample.neverStops.1, Sample.neverStops.2, Sample.neverStops.3, Sample.neverStops.4⟩ (.new (some []) []) (fun u hu => ?_) (fun _ _ hu => ?_) (fun _ hu => ?_) (fun _ hu => ?_) hv hl⟩
  · rcases Sample.meets_optional hu with rfl | rfl | rfl | rfl <;> rfl
  · have := Sample.meets_optional hu; simp at this
  · have := Sample.meets_optional hu; simp at this
  · have := Sample.meets_optional hu; simp at this

end TL
