import Verif.Lemmas.ThreadsSat
import Verif.Props.Threads
import Verif.Props.Soundness
import Verif.Props.Errors
import Verif.Props.Trace
import Verif.Props.Strict
import Verif.Props.Render
/-!
# C60: what a shared loader returns and raises is right

Unlike C59, nothing is assumed about forward references: when threads race, a call can resolve a reference to a class of the same name that another
thread has registered, or fail because the name is not registered yet; but what it returns still has the requested type, what it raises is still
a TypedloadException, and the trace of the exception still leads to the culprit.
-/

namespace TL

variable {W : World} {C : Config}

/-- **C60** (partial). A loader with any history and any handlers is shared by any number of threads, each making one call.  However their accesses are
interleaved, what a call returns is an instance of the type asked for (references denoting types of the right name).
Missing: as in `C03_user_partial`. -/
theorem C60_user_sound_partial (hm : C.Mixed) (hl : W.Lawful) {s : LState} (hs : Reachable W C s) {jobs : List Job} {U : Ty → Val → Prop}
    (hu : ∀ i x u y, pick W C u = .ok (.custom i) → (W.customLoad i x u).MayReturn (HasType W U (Known W s)) y → HasType W U (Known W s) u y)
    (hsafe : ∀ j ∈ jobs, ∀ kt vt, Meets W C s j.type (.dict kt vt) → C.isBasic vt = false ∨ pick W C kt = pick W C vt)
    {c : Conf} (hc : (Conf.start W C s jobs).Steps c) {i : Nat} {j : Job} (hj : jobs[i]? = some j) {r : Val} (hr : c.threads[i]? = some (.ret r)) :
    HasType W U (Known W s) j.type r := by
  obtain ⟨hh, hp, hP⟩ := (Conf.Steps.sem hs
    (fun h v t o hg hs hp r ho => sound_step (F' := Known W s) hm hl (fun _ _ h => h.2) hu
      (fun k v => fun ⟨j, hj, h⟩ => hsafe j hj k v h) h v t o hg hs hp r ho) hc hj).1 r hr
  exact hP hp r rfl

/-- **C60** (partial). The same with the default handlers.  Missing: as in `C03_sound_partial`. -/
theorem C60_sound_partial (hd : C.Default) (hl : W.Lawful) {s : LState} (hs : Reachable W C s) {jobs : List Job}
    (hsafe : ∀ j ∈ jobs, ∀ kt vt, Meets W C s j.type (.dict kt vt) → DictSafe C kt vt)
    {c : Conf} (hc : (Conf.start W C s jobs).Steps c) {i : Nat} {j : Job} (hj : jobs[i]? = some j) {r : Val} (hr : c.threads[i]? = some (.ret r)) :
    HasType W NoUser (Known W s) j.type r :=
  C60_user_sound_partial hd.mixed hl hs (fun i _ _ _ hp _ => absurd (pick_installed hp) (not_installed hd i))
    (fun j hj k v h => (hsafe j hj k v h).pick_eq hd) hc hj hr

/-- **C60** (partial). However the calls are interleaved, a call that raises raises a TypedloadException, unless its data and type exhibit one of the
reasons listed in `Culprit`: sharing the loader adds no reason.  Missing: as in `C05_user_partial`. -/
theorem C60_typed_errors_partial (hm : C.Mixed) (hcc : CalmConditions W C) (hl : W.Lawful) {s : LState} (hs : Reachable W C s) {jobs : List Job}
    {c : Conf} (hc : (Conf.start W C s jobs).Steps c) {i : Nat} {j : Job} (hj : jobs[i]? = some j) {e : Exc} (he : c.threads[i]? = some (.raise e)) :
    e.isTL = true ∨ Culprit W C (Known W s) j.value j.type := by
  rcases (Conf.Steps.sem hs (fun h v t o _ hs => crash_step hm hcc hl (fun _ _ h => h.2) h v t o hs) hc hj).2 e he with ⟨hh, e', hp, hP, rfl⟩ | ⟨c, hp, rfl⟩
  · unfold loadExc
    split
    · rename_i h; exact Or.inl (by simpa using h)
    · rename_i hn; exact Or.inr (((hP hp).2 _ rfl).resolve_left hn)
  · rw [lookupExc_calm hcc hp]; exact Or.inl rfl

/-- **C60** However the calls are interleaved, the trace of an exception starts with the value and the type of the call that raised it (not of another
one) and leads to the value the exception is about. -/
theorem C60_trace (hd : C.Default) {s : LState} (hs : Reachable W C s) {jobs : List Job} {c : Conf} (hc : (Conf.start W C s jobs).Steps c)
    {i : Nat} {j : Job} (hj : jobs[i]? = some j) {e : Exc} (he : c.threads[i]? = some (.raise e)) (htl : e.isTL = true) :
    (index W C j.type = .error .value ∧ e = mkExc .tlType (.noHandler j.type) j.value j.type) ∨
    ∃ tr w r, e.trace = ⟨j.value, j.type, none⟩ :: tr ∧ Leads W C (Known W s) j.value j.type tr w r ∧ Shown C w e.value ∧
      ∀ x ∈ e.subs, x.isTL = true → Located W C (Known W s) w r x := by
  rcases (Conf.Steps.sem hs (P := TraceInv W C (Known W s)) (fun h v t o _ hs => trace_step hd.candid (fun _ _ h => h.2) h v t o hs) hc hj).2 e he with
    ⟨hh, e', hp, hP, rfl⟩ | ⟨c, hp, rfl⟩
  · right
    unfold loadExc at htl ⊢
    by_cases h' : e'.isTL = true
    · rw [if_pos h']
      cases hP hp _ rfl h' with
      | mk h1 h2 h3 => exact ⟨_, _, _, by rw [Exc.trace_push], h1, by rwa [Exc.value_push], by rwa [Exc.subs_push]⟩
    · rw [if_neg h'] at htl; cases htl
  · left
    rw [lookupExc_default hd hp]
    refine ⟨?_, rfl⟩
    have := pick_error hd hp; subst this
    unfold pick at hp
    cases hi : index W C j.type with
    | error x => rw [hi] at hp; cases hp; rfl
    | ok i =>
      rw [hi] at hp
      have := (indexFrom_range j.type _ _ _ hi).2
      dsimp only at hp
      rw [List.getElem?_eq_getElem (by omega)] at hp
      cases hp

/-- **C60** With `basiccast=False`, however the calls are interleaved, a call for a type without constructors returns the data it was given. -/
theorem C60_never_converts (hd : C.Default) (hb : C.basiccast = false) {s : LState} (hs : Reachable W C s) {jobs : List Job}
    (ht : ∀ j ∈ jobs, ∀ u, Meets W C s j.type u → PlainTy u = true) {c : Conf} (hc : (Conf.start W C s jobs).Steps c)
    {i : Nat} {j : Job} (hj : jobs[i]? = some j) {r : Val} (hr : c.threads[i]? = some (.ret r)) : SameData C j.value r := by
  obtain ⟨hh, hp, hP⟩ := (Conf.Steps.sem hs (strict_step hd.calm hb (MeetsAny.closed s jobs) (fun _ _ => hd.usual) (fun u => fun ⟨j, hj, h⟩ => ht j hj u h)) hc hj).1 r hr
  exact hP (picked_plain (picked hd hp) (ht j (List.mem_of_getElem? hj) j.type .self))

/-- **C60** (partial). However the calls are interleaved, `str(e)` works for every TypedloadException raised.  Missing: as in `C32_render_partial`. -/
theorem C60_render_partial (hd : C.Default) {s : LState} (hs : Reachable W C s) {jobs : List Job}
    (hen : ∀ j ∈ jobs, ∀ n, Meets W C s j.type (.enum n) → (W.enm n).hints = []) {c : Conf} (hc : (Conf.start W C s jobs).Steps c)
    {i : Nat} {j : Job} (hj : jobs[i]? = some j) {e : Exc} (he : c.threads[i]? = some (.raise e)) (htl : e.isTL = true) :
    ∃ text, render W e = .ok text := by
  refine (render_spec e).1.2 ?_
  rcases (Conf.Steps.sem hs (P := PrintInv W C) (fun h v t o hg hs => print_step hd (fun n => fun ⟨j, hj, h⟩ => hen j hj n h) h v t o hg hs) hc hj).2 e he with
    ⟨hh, e', hp, hP, rfl⟩ | ⟨c, hp, rfl⟩
  · unfold loadExc at htl ⊢
    split
    · rename_i h'; exact (hP hp _ rfl h').push _
    · exact .of_nil rfl
  · rw [lookupExc_default hd hp]; exact .of_nil rfl

/-! ## The hypotheses are met -/

/-- The types met when loading a `Node` with a new loader. -/
theorem Sample.meets_node {u : Ty} (h : Meets Sample.W Sample.C (fresh []) (.obj 7) u) :
    u = .obj 7 ∨ u = .prim .int ∨ u = .union [.fref "Node", .prim .none] ∨ u = .fref "Node" ∨ u = .prim .none := by
  induction h with
  | self => exact Or.inl rfl
  | known h => obtain ⟨fr, h1, h2⟩ := h; cases h1; cases h2
  | coll _ ih => simp at ih
  | tuple _ _ ih => simp at ih
  | dictKey _ ih => simp at ih
  | dictVal _ ih => simp at ih
  | newtype _ ih => simp at ih
  | enum _ _ ih => simp at ih
  | custom hi _ _ => exact absurd hi (not_installed (C := Sample.C) rfl _)
  | union _ hu ih =>
    simp at ih; subst ih
    simp at hu; rcases hu with rfl | rfl <;> simp
  | field _ hfi ht ih =>
    simp at ih; subst ih
    have hf' : _ ∈ Sample.clsNode.fields := hfi
    simp [Sample.clsNode] at hf'
    rcases hf' with rfl | rfl
    · cases ht <;> first | (simp; done) | contradiction
    · cases ht <;> first | (simp; done) | contradiction

/-- Any number of threads load nodes with a new loader, in any interleaving: those that return, return nodes.  (Not all return, see
`C59_unregistered_counterexample`.) -/
example (jobs : List Job) (hjobs : ∀ j ∈ jobs, j.type = .obj 7) (c : Conf) (hc : (Conf.start Sample.W Sample.C (fresh []) jobs).Steps c)
    (i : Nat) (j : Job) (hj : jobs[i]? = some j) (r : Val) (hr : c.threads[i]? = some (.ret r)) :
    HasType Sample.W NoUser (Known Sample.W (fresh [])) (.obj 7) r := by
  have := C60_sound_partial (s := fresh []) (show Sample.C.Default from rfl) Sample.lawful (.new (some []) []) (fun j hj kt vt h => by
    rw [hjobs j hj] at h
    exact absurd (Sample.meets_node h) (by simp)) hc hj hr
  rwa [hjobs j (List.mem_of_getElem? hj)] at this

/-- The call of `C59_unregistered_counterexample` that loses the race: it raises a TypedloadException whose trace starts with its own data. -/
example : let v := Val.dict [(.str "v", .int 1), (.str "next", .dict [(.str "v", .int 2), (.str "next", .none)])]
    ∃ c e tr, (Conf.start Sample.W Sample.C (fresh []) [⟨v, .obj 7, 9⟩, ⟨v, .obj 7, 9⟩]).Steps c ∧ c.threads[1]? = some (.raise e) ∧
      e.trace = ⟨v, .obj 7, none⟩ :: tr ∧ ∃ text, render Sample.W e = .ok text := by
  obtain ⟨c, e, r, s', hc, he, hm, _⟩ := C59_unregistered_counterexample
  have hres := Conf.Steps.sem (s := fresh []) (.new (some []) []) (P := fun _ _ _ _ => True) (fun _ _ _ _ _ _ => trivial) hc
    (i := 1) (j := ⟨_, .obj 7, 9⟩) rfl
  have htl : e.isTL = true := by
    rcases hres.2 e he with ⟨_, e', _, _, rfl⟩ | ⟨_, _, rfl⟩
    · unfold loadExc at hm ⊢
      split
      · rename_i h; simpa using h
      · rename_i h; rw [if_neg h] at hm; cases hm
    · rename_i c' hp
      rw [lookupExc_default (show Sample.C.Default from rfl) hp]; rfl
  have htr := C60_trace (s := fresh []) (show Sample.C.Default from rfl) (.new (some []) []) hc (i := 1) (j := ⟨_, .obj 7, 9⟩) rfl he htl
  have hre := C60_render_partial (s := fresh []) (show Sample.C.Default from rfl) (.new (some []) []) (fun j hj n h => by
    have : j.type = .obj 7 := by simp at hj; rw [hj]
    rw [this] at h
    exact absurd (Sample.meets_node h) (by simp)) hc (i := 1) (j := ⟨_, .obj 7, 9⟩) rfl he htl
  rcases htr with ⟨h, _⟩ | ⟨tr, _, _, h, _⟩
  · cases h
  · exact ⟨c, e, tr, hc, he, h, hre⟩

/-- Threads loading lists of integers with `basiccast=False` get back the data they passed. -/
example (jobs : List Job) (hjobs : ∀ j ∈ jobs, j.type = .coll .list (.prim .int)) (c : Conf) (hc : (Conf.start Sample.W Sample.strict (fresh []) jobs).Steps c)
    (i : Nat) (j : Job) (hj : jobs[i]? = some j) (r : Val) (hr : c.threads[i]? = some (.ret r)) : SameData Sample.strict j.value r := by
  refine C60_never_converts (s := fresh []) (show Sample.strict.Default from rfl) rfl (.new (some []) []) (fun j hj u h => ?_) hc hj hr
  rw [hjobs j hj] at h
  have : u = .coll .list (.prim .int) ∨ u = .prim .int := by
    induction h with
    | known h => obtain ⟨fr, h1, h2⟩ := h; cases h1; cases h2
    | custom hi _ _ => exact absurd hi (not_installed (C := Sample.strict) rfl _)
    | _ => simp_all
  rcases this with rfl | rfl <;> rfl

/-- With a handler of the user that calls the loader back, two threads: the second raises, for a reason that is not a `Culprit` of its data. -/
example (c : Conf) (hc : (Conf.start Sample.WB Sample.CB (fresh []) [⟨.list [.list []], .strcons "Tree", 9⟩, ⟨.str "q", .strcons "Path", 9⟩]).Steps c)
    (e : Exc) (he : c.threads[1]? = some (.raise e)) : e.isTL = true ∨ Culprit Sample.WB Sample.CB (Known Sample.WB (fresh [])) (.str "q") (.strcons "Path") :=
  C60_typed_errors_partial (s := fresh []) Sample.mixedB Sample.calmB Sample.lawfulB (.new (some []) []) hc (i := 1) (j := ⟨.str "q", .strcons "Path", 9⟩) rfl he
example : ∃ c e, (Conf.start Sample.WB Sample.CB (fresh []) [⟨.list [.list []], .strcons "Tree", 9⟩, ⟨.str "q", .strcons "Path", 9⟩]).Steps c ∧
    c.threads[1]? = some (.raise e) := by
  have h : ((Conf.start Sample.WB Sample.CB (fresh []) [⟨.list [.list []], .strcons "Tree", 9⟩, ⟨.str "q", .strcons "Path", 9⟩]).play
      (List.replicate 3 0 ++ List.replicate 20 1)).threads[1]?.any (fun m => match m with | .raise _ => true | _ => false) = true := by decide +kernel
  cases hx : ((Conf.start Sample.WB Sample.CB (fresh []) [⟨.list [.list []], .strcons "Tree", 9⟩, ⟨.str "q", .strcons "Path", 9⟩]).play
      (List.replicate 3 0 ++ List.replicate 20 1)).threads[1]? with
  | none => rw [hx] at h; cases h
  | some m =>
    rw [hx] at h
    cases m with
    | raise e => exact ⟨_, e, Conf.play_steps .refl _, hx⟩
    | _ => cases h

end TL
