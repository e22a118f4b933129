import Verif.Props.ThreadsSound
import Verif.Props.Render
import Verif.Props.Local
/-!
# C31, C32, C60 with handlers added by the user
-/

namespace TL

variable {W : World} {C : Config}

/-- One of the handlers of the user. -/
def Handler.isCustom : Handler → Bool
  | .custom _ => true
  | _ => false

/-- When the user has done nothing but add handlers, anywhere in the list, every type is served by one of them, by the handler of the default list, or
not at all. -/
theorem extended_of_added (h : C.handlers.filter (fun p => !p.2.isCustom) = defaultHandlers) (t : Ty) (hh : Handler) (hp : pick W C t = .ok hh) :
    pick W C.stock t = .ok hh ∨ ∃ i, hh = .custom i := by
  have key : ∀ l : List (Cond × Handler), firstOf W C t l = .ok hh → firstOf W C t (l.filter (fun p => !p.2.isCustom)) = .ok hh ∨ ∃ i, hh = .custom i := by
    intro l
    induction l with
    | nil => intro h; cases h
    | cons p l ih =>
      obtain ⟨c, h'⟩ := p
      intro hf
      unfold firstOf at hf
      have hu : (∃ i, h' = .custom i) ∨ h'.isCustom = false := by cases h' <;> first | exact Or.inl ⟨_, rfl⟩ | exact Or.inr rfl
      rcases hu with ⟨i, rfl⟩ | hu
      · rw [List.filter_cons_of_neg (by simp [Handler.isCustom])]
        split at hf
        · split at hf
          · cases hf
          · exact ih hf
        · cases hf; exact Or.inr ⟨i, rfl⟩
        · exact ih hf
      · rw [List.filter_cons_of_pos (by simp [hu])]
        unfold firstOf
        cases hc : evalCond W C c t with
        | error e =>
          rw [hc] at hf
          dsimp only at hf ⊢
          split at hf
          · cases hf
          · rename_i hr; rw [if_neg hr]; exact ih hf
        | ok b =>
          rw [hc] at hf
          cases b with
          | true => exact Or.inl hf
          | false => exact ih hf
  rw [pick_firstOf] at hp ⊢
  unfold Config.stock
  rw [firstOf_handlers]
  rw [← h]
  exact key _ hp

theorem Sample.candid : Candid Sample.WB Sample.CB where
  extended := extended_of_added rfl
  own := by
    intro i v t _
    show (Sample.callback v t).Forthright v
    unfold Sample.callback
    split
    · exact ⟨fun _ => trivial, fun _ => Or.inl rfl⟩
    · split
      · split
        · exact ⟨fun _ => trivial, fun _ => Or.inl rfl⟩
        · trivial
      · trivial
  served := by
    intro i v t x u a _ ha
    have ha : (Sample.callback v t).Calls x u a := ha
    unfold Sample.callback at ha
    split at ha
    · cases ha with
      | here => exact ⟨_, rfl⟩
      | @later _ _ _ _ o _ _ _ h => cases o <;> cases h
    · split at ha
      · split at ha
        · cases ha with
          | here => exact ⟨_, rfl⟩
          | @later _ _ _ _ o _ _ _ h => cases o <;> cases h
        · cases ha
      · cases ha

/-- C31: the trace of an exception that has passed through a handler of the user leads through the element and the call made by the handler. -/
example : ∃ e s', Raises Sample.WB Sample.CB (fresh []) (.list [.str "5", .str "q"]) (.coll .list (.strcons "Path")) e s' ∧ e.isTL = true ∧
    e.trace.map (fun i => (i.ty, i.ann)) = [(.coll .list (.strcons "Path"), none), (.coll .list (.strcons "Path"), some (.index 1)), (.prim .int, none)] ∧
    ∃ tr w r, e.trace = ⟨.list [.str "5", .str "q"], .coll .list (.strcons "Path"), none⟩ :: tr ∧
      Leads Sample.WB Sample.CB (Known Sample.WB (fresh [])) (.list [.str "5", .str "q"]) (.coll .list (.strcons "Path")) tr w r ∧ Shown Sample.CB w e.value := by
  have h : ∃ e s', Raises Sample.WB Sample.CB (fresh []) (.list [.str "5", .str "q"]) (.coll .list (.strcons "Path")) e s' ∧ e.isTL = true ∧
    e.trace.map (fun i => (i.ty, i.ann)) = [(.coll .list (.strcons "Path"), none), (.coll .list (.strcons "Path"), some (.index 1)), (.prim .int, none)] :=
    ⟨_, _, ⟨9, rfl⟩, rfl, rfl⟩
  obtain ⟨e, s', h1, h2, h3⟩ := h
  obtain ⟨tr, w, r, h4, h5, h6, _⟩ := C31_user Sample.candid (.new (some []) []) h1 h2 ⟨_, rfl⟩
  exact ⟨e, s', h1, h2, h3, tr, w, r, h4, h5, h6⟩

/-- **C32**, the path, with handlers added by the user: for a supported type, a text returned by `str(e)` is the description, then `Path: `, then
the steps that lead to the wrong data, each after a dot, then nothing or the list of sub-exceptions. -/
theorem C32_path_user (hd : Candid W C) {s s' : LState} (hs : Reachable W C s) {v : Val} {t : Ty} {e : Exc} (h : Raises W C s v t e s')
    (htl : e.isTL = true) (hsup : ∃ h, pick W C t = .ok h) {text : String} (ht : render W e = .ok text) :
    ∃ tr rest, e.trace = ⟨v, t, none⟩ :: tr ∧ (∃ w r, Leads W C (Known W s) v t tr w r ∧ Shown C w e.value) ∧ Ending e rest ∧
      text = W.strMsg e.msg ++ "\nPath: " ++ (if tr.isEmpty then "." else PathText W tr) ++ rest := by
  obtain ⟨tr, w, r, h1, h4, h5, _⟩ := C31_user hd hs h htl hsup
  obtain ⟨rest, h2, h3⟩ := render_text ht
  refine ⟨tr, rest, h1, ⟨w, r, h4, h5⟩, h3, ?_⟩
  rw [h2, h1, renderPath_root]

/-- C32: the text for that exception. -/
example : ∃ e s' text, Raises Sample.WB Sample.CB (fresh []) (.list [.str "5", .str "q"]) (.coll .list (.strcons "Path")) e s' ∧ e.isTL = true ∧
    render Sample.WB e = .ok text :=
  ⟨_, _, _, ⟨9, rfl⟩, rfl, rfl⟩

/-- **C60** With handlers added by the user, for every interleaving of the loads of several threads sharing the loader: the trace of every
TypedloadException that leaves a load of a supported type starts with the value and type given to that load and leads to the wrong data in it. -/
theorem C60_trace_user (hd : Candid W C) {s : LState} (hs : Reachable W C s) {jobs : List Job} {c : Conf} (hc : (Conf.start W C s jobs).Steps c)
    {i : Nat} {j : Job} (hj : jobs[i]? = some j) {e : Exc} (he : c.threads[i]? = some (.raise e)) (htl : e.isTL = true)
    (hsup : ∃ h, pick W C j.type = .ok h) :
    ∃ tr w r, e.trace = ⟨j.value, j.type, none⟩ :: tr ∧ Leads W C (Known W s) j.value j.type tr w r ∧ Shown C w e.value ∧
      ∀ x ∈ e.subs, x.isTL = true → Located W C (Known W s) w r x := by
  rcases (Conf.Steps.sem hs (P := TraceInv W C (Known W s)) (fun h v t o _ hs => trace_step hd (fun _ _ h => h.2) h v t o hs) hc hj).2 e he with
    ⟨hh, e', hp, hP, rfl⟩ | ⟨c, hp, rfl⟩
  · unfold loadExc at htl ⊢
    by_cases h' : e'.isTL = true
    · rw [if_pos h']
      cases hP hp _ rfl h' with
      | mk h1 h2 h3 => exact ⟨_, _, _, by rw [Exc.trace_push], h1, by rwa [Exc.value_push], by rwa [Exc.subs_push]⟩
    · rw [if_neg h'] at htl; cases htl
  · obtain ⟨h, hh⟩ := hsup; rw [hp] at hh; cases hh

/-- C60: any number of threads load lists of paths with a shared loader that has a handler of the user, in any interleaving: what they raise for
bad data starts with the data of the thread. -/
example (jobs : List Job) (hjobs : ∀ j ∈ jobs, j.type = .coll .list (.strcons "Path")) (c : Conf) (hc : (Conf.start Sample.WB Sample.CB (fresh []) jobs).Steps c)
    (i : Nat) (j : Job) (hj : jobs[i]? = some j) (e : Exc) (he : c.threads[i]? = some (.raise e)) (htl : e.isTL = true) :
    ∃ tr, e.trace = ⟨j.value, .coll .list (.strcons "Path"), none⟩ :: tr := by
  have ht := hjobs j (List.mem_of_getElem? hj)
  obtain ⟨tr, _, _, h, _⟩ := C60_trace_user Sample.candid (.new (some []) []) hc hj he htl (by rw [ht]; exact ⟨_, rfl⟩)
  exact ⟨tr, by rw [← ht]; exact h⟩

/-- A handler that hides where the data came from is not forthright: it raises, with a trace of its own, an exception about other data. -/
theorem C31_forthright_counterexample : ∃ (W : World) (e : Exc), (∀ t h, pick W Sample.CB t = .ok h → pick W Sample.CB.stock t = .ok h ∨ ∃ i, h = .custom i) ∧
    (∃ s', Raises W Sample.CB (fresh []) (.str "q") (.strcons "Path") e s') ∧ e.isTL = true ∧
    ¬ ∃ tr w r, e.trace = ⟨.str "q", .strcons "Path", none⟩ :: tr ∧ Leads W Sample.CB (Known W (fresh [])) (.str "q") (.strcons "Path") tr w r ∧
      Shown Sample.CB w e.value := by
  refine ⟨{ Sample.WB with customLoad := fun _ _ t => .raise (mkExc .tlValue (.noHandler t) (.int 3) t) }, _, extended_of_added rfl, ⟨_, ⟨9, rfl⟩⟩, rfl, ?_⟩
  rintro ⟨tr, w, r, h1, h2, h3⟩
  have h1 : [(⟨.str "q", .strcons "Path", none⟩ : TraceItem)] = _ :: tr := h1
  injection h1 with _ h1
  subst h1
  cases h2
  have h3 : Shown Sample.CB (.str "q") (.int 3) := h3
  cases h3

end TL
