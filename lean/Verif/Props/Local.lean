import Verif.Spec.Local
import Verif.Lemmas.Local
import Verif.Sample
/-!
# C83: a handler has no effect on the types it does not accept
-/

namespace TL

variable {W : World} {C : Config}

/-- The first handler of a list whose condition accepts the type. -/
def firstOf (W : World) (C : Config) (t : Ty) : List (Cond × Handler) → Except ExcClass Handler
  | [] => .error .value
  | (c, h) :: rest => match evalCond W C c t with
    | .error e => if C.raiseconditionerrors then .error e else firstOf W C t rest
    | .ok true => .ok h
    | .ok false => firstOf W C t rest

theorem indexFrom_firstOf (t : Ty) (l : List (Cond × Handler)) : ∀ (pre : List (Cond × Handler)),
    (match indexFrom W C t l pre.length with
      | .error e => .error e
      | .ok i => match (pre ++ l)[i]? with
        | some p => .ok p.2
        | none => .error (.other 0)) = firstOf W C t l := by
  induction l with
  | nil => intro pre; rfl
  | cons p l ih =>
    intro pre
    obtain ⟨c, h⟩ := p
    have ih := ih (pre ++ [(c, h)])
    simp only [List.length_append, List.length_cons, List.length_nil, Nat.zero_add, List.append_assoc, List.cons_append, List.nil_append] at ih
    unfold indexFrom firstOf
    cases evalCond W C c t with
    | error e =>
      cases hr : C.raiseconditionerrors with
      | true => simp only [if_true]
      | false => simp only [Bool.false_eq_true, if_false]; exact ih
    | ok b =>
      cases b with
      | false => exact ih
      | true => simp

theorem pick_firstOf (t : Ty) : pick W C t = firstOf W C t C.handlers := by
  have := indexFrom_firstOf (W := W) (C := C) t C.handlers []
  rw [← this]
  unfold pick index
  simp only [List.nil_append, List.length_nil]
  cases indexFrom W C t C.handlers 0 with
  | error e => rfl
  | ok i => dsimp only; cases C.handlers[i]? <;> rfl

/-- Conditions do not look at the list of handlers. -/
theorem evalCond_handlers (hs : List (Cond × Handler)) (c : Cond) (t : Ty) : evalCond W { C with handlers := hs } c t = evalCond W C c t := by
  cases c <;> rfl

theorem firstOf_handlers (hs : List (Cond × Handler)) (t : Ty) (l : List (Cond × Handler)) :
    firstOf W { C with handlers := hs } t l = firstOf W C t l := by
  induction l with
  | nil => rfl
  | cons p l ih => obtain ⟨c, h⟩ := p; unfold firstOf; rw [evalCond_handlers, ih]

theorem firstOf_insert {t : Ty} {p : Cond × Handler} (hp : PassesOver W C p.1 t) (back : List (Cond × Handler)) : ∀ front,
    firstOf W C t (front ++ p :: back) = firstOf W C t (front ++ back)
  | [] => by
    obtain ⟨c, h⟩ := p
    simp only [List.nil_append]
    rw [firstOf]
    rcases hp with hp | ⟨hr, e, hp⟩
    · simp only at hp; rw [hp]
    · simp only at hp; rw [hp]; simp [hr]
  | q :: front => by
    obtain ⟨c, h⟩ := q
    simp only [List.cons_append]
    rw [firstOf, firstOf, firstOf_insert hp back front]

/-- **C83** Two loaders whose lists of handlers select the same handler for every type that can be met while loading into `t` behave the same
on `t`, for every value, after any history and to any depth: the same result or the same exception, and the same state afterwards. -/
theorem C83_same_choice {s : LState} (hs : Reachable W C s) (t : Ty) (hands : List (Cond × Handler))
    (hsame : ∀ u, Meets W C s t u → pick W { C with handlers := hands } u = pick W C u) (n : Nat) (v : Val) :
    load W { C with handlers := hands } n v t s = load W C n v t s := by
  have hpick : Config.Agree W C { C with handlers := hands } (Meets W C s t) :=
    ⟨rfl, rfl, rfl, rfl, fun _ _ => rfl, fun _ _ _ _ => rfl, fun u hu => (hsame u hu).symm⟩
  exact (SameAt.loadWith hpick (Meets.closed s t) (SameAt.run hpick (Meets.closed s t) n) v .self none s (hs.good_meets t)).symm

/-- **C83** A handler inserted anywhere in the list, whose condition accepts none of the types that can be met while loading into `t`, changes
nothing on `t`. -/
theorem C83_inserted {s : LState} (hs : Reachable W C s) (t : Ty) (front back : List (Cond × Handler)) (hC : C.handlers = front ++ back)
    (p : Cond × Handler) (hp : ∀ u, Meets W C s t u → PassesOver W C p.1 u) (n : Nat) (v : Val) :
    load W (C.insert front p back) n v t s = load W C n v t s := by
  refine C83_same_choice hs t _ (fun u hu => ?_) n v
  rw [pick_firstOf, pick_firstOf, firstOf_handlers, hC]
  exact firstOf_insert (hp u hu) back front

/-- **C83** A handler removed from the list, whose condition accepts none of the types that can be met while loading into `t`, was not missed on `t`. -/
theorem C83_removed {s : LState} (hs : Reachable W C s) (t : Ty) (front back : List (Cond × Handler)) (p : Cond × Handler)
    (hC : C.handlers = front ++ p :: back) (hp : ∀ u, Meets W C s t u → PassesOver W C p.1 u) (n : Nat) (v : Val) :
    load W { C with handlers := front ++ back } n v t s = load W C n v t s := by
  refine C83_same_choice hs t _ (fun u hu => ?_) n v
  rw [pick_firstOf, pick_firstOf, firstOf_handlers, hC]
  exact (firstOf_insert (hp u hu) back front).symm

/-- **C83** In terms of `typedload.load(v, t)` with a `Loader` made for the occasion. -/
theorem C83_fresh (t : Ty) (rew : List Nat) (front back : List (Cond × Handler)) (hC : C.handlers = front ++ back)
    (p : Cond × Handler) (hp : ∀ u, Meets W C (fresh rew) t u → PassesOver W C p.1 u) (n : Nat) (v : Val) :
    apiLoad W (C.insert front p back) n v t rew = apiLoad W C n v t rew :=
  C83_inserted (Reachable.new _ _) t front back hC p hp n v

/-- The types met while loading into `List[Node]`, where `Node` is a recursive dataclass. -/
theorem Sample.meets_nodes {u : Ty} (h : Meets Sample.WB Sample.C (fresh []) (.coll .list (.obj 7)) u) :
    u ∈ [.coll .list (.obj 7), .obj 7, .prim .int, .union [.fref "Node", .prim .none], .fref "Node", .prim .none] := by
  induction h with
  | self => simp
  | known hb => obtain ⟨fr, h1, h2⟩ := hb; cases h1; cases h2
  | coll _ ih => simp at ih; simp [ih]
  | tuple _ _ ih => simp at ih
  | dictKey _ ih => simp at ih
  | dictVal _ ih => simp at ih
  | union _ hu ih => simp at ih; subst ih; simp at hu; rcases hu with rfl | rfl <;> simp
  | newtype _ ih => simp at ih
  | enum _ _ ih => simp at ih
  | field _ hf ht ih =>
    simp at ih; subst ih
    simp [Sample.WB, Sample.W, Sample.cls, Sample.clsNode] at hf
    rcases hf with rfl | rfl <;> cases ht <;> simp_all
  | custom hi => exact absurd hi (not_installed (by rfl) _)

/-- The hypotheses of `C83_fresh`, for the handler of `Path` and `Tree` of `Sample`, put in front of all the others, and a list of objects of a
recursive class... -/
example : Sample.C.handlers = [] ++ defaultHandlers ∧
    (∀ u, Meets Sample.WB Sample.C (fresh []) (.coll .list (.obj 7)) u → PassesOver Sample.WB Sample.C (.custom 1) u) ∧
    Sample.C.insert [] (.custom 1, .custom 1) defaultHandlers = Sample.CB := by
  refine ⟨rfl, fun u hu => Or.inl ?_, rfl⟩
  have := Sample.meets_nodes hu
  simp only [List.mem_cons, List.not_mem_nil, or_false] at this
  rcases this with rfl | rfl | rfl | rfl | rfl | rfl <;> decide
/-- ...the loads that it is about... -/
example : (apiLoad Sample.WB Sample.CB 9 (.list [.dict [(.str "v", .str "5"), (.str "next", .none)]]) (.coll .list (.obj 7)) []).val? =
    some (.list [.inst 7 [("v", .int 5), ("next", .none)]]) := by decide
/-- ...and a load that the handler does change. -/
example : (apiLoad Sample.WB Sample.CB 9 (.list [.str "5"]) (.coll .list (.strcons "Path")) []).val? = some (.list [.int 5]) ∧
    (apiLoad Sample.WB Sample.C 9 (.list [.str "5"]) (.coll .list (.strcons "Path")) []).val? = some (.list [.strobj "Path" "5"]) := by decide

/-- A program whose handler's condition raises on the types it was not made for. -/
def Sample.WCR : World := { Sample.WB with customCond := fun _ t => if t = .strcons "Path" then .ok true else .error .attr }
/-- The hypotheses of `C83_inserted`, for a condition that raises, on a loader with `raiseconditionerrors=False`. -/
example : ∀ u, Meets Sample.WCR { Sample.C with raiseconditionerrors := false } (fresh []) (.prim .int) u →
    PassesOver Sample.WCR { Sample.C with raiseconditionerrors := false } (.custom 1) u := by
  intro u hu
  have : u = .prim .int := by
    induction hu with
    | self => rfl
    | known hb => obtain ⟨fr, h1, h2⟩ := hb; cases h1; cases h2
    | custom hi => exact absurd hi (not_installed (by rfl) _)
    | _ => simp_all
  subst this
  exact Or.inr ⟨rfl, .attr, rfl⟩
/-- The hypotheses of `C83_removed`, for the same handler and `List[Node]`. -/
example : Sample.CB.handlers = [] ++ (.custom 1, .custom 1) :: defaultHandlers ∧ PassesOver Sample.WB Sample.CB (.custom 1) (.obj 7) :=
  ⟨rfl, Or.inl (by decide)⟩

end TL
