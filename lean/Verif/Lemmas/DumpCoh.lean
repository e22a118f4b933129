import Verif.Spec.Api
import Verif.Lemmas.Rew
import Verif.Lemmas.Fuel
/-!
# A dumper without caches, coherent caches, parts of values
-/

namespace TL

variable {W : World} {C : DConfig}

/-! ## A dumper without caches -/

/-- `dump` without caches. -/
def Ref.dump (W : World) (C : DConfig) : Nat → Val → Ty → M Unit Exc Val
  | 0 => fun _ _ _ => .div
  | n + 1 => fun v t =>
    match dPick W C v with
    | .error e => M.throw e
    | .ok h => dstep W C (fun c => Pure.pure (mkDataDesc W (W.cls c))) (Ref.dump W C n) h v t

/-! ## The choice of the handler -/

/-- The first default handler matching values of a class. -/
def dHandlerOf (W : World) (C : DConfig) (v : Val) : Option DHandler :=
  if C.isBasic (typeOf v) then some .identity else
  match v with
  | .nt _ _ => some .namedtuple
  | .inst c _ => match (W.cls c).kind with
    | .dataclass => some .dataclass
    | .attrs => some .attrs
    | _ => none
  | .seq _ _ => some .iterator
  | .enumv _ _ => some .enum
  | .dict _ => some .dict
  | .date .. | .time .. | .datetime .. => some .date
  | .timedelta _ => some .timedelta
  | .pattern _ => some .pattern
  | .strobj c _ => if C.strconstructed.contains c then some .str else none
  | _ => none

theorem dPick_eq (hd : C.Default) (v : Val) : dPick W C v = match dHandlerOf W C v with
    | some h => .ok h
    | none => .error (unableToDump v) := by
  unfold dPick dIndex dHandlerOf
  rw [hd]
  by_cases hb : C.isBasic (typeOf v) = true
  · simp [defaultDHandlers, dIndexFrom, dEvalCond, hb]
  · have hb' : C.isBasic (typeOf v) = false := by simpa using hb
    rw [hb']
    cases v with
    | inst c fs =>
      simp only [typeOf] at hb'
      cases hk : (W.cls c).kind <;> simp [defaultDHandlers, dIndexFrom, dEvalCond, hb', hk, Val.isDict, typeOf] <;> rfl
    | strobj c r =>
      simp only [typeOf] at hb'
      by_cases hc : c ∈ C.strconstructed <;>
      simp [defaultDHandlers, dIndexFrom, dEvalCond, hb', hc, Val.isDict, typeOf]
    | _ => simp only [typeOf] at hb'; simp [defaultDHandlers, dIndexFrom, dEvalCond, hb', Val.isDict, typeOf]

theorem className_builtin (k : SeqKind) : k.className ∈ builtinNames := by cases k <;> decide

theorem dHandlerOf_typeOf {v w : Val} (hv : LegalTop W v) (hw : LegalTop W w) (h : typeOf v = typeOf w) : dHandlerOf W C v = dHandlerOf W C w := by
  have hne : ∀ (k : SeqKind) (x : String), x ∉ ["list", "tuple", "set", "frozenset"] → k.className ≠ x := by
    intro k x hx he; subst he; apply hx; cases k <;> decide
  unfold dHandlerOf
  rw [h]
  split
  · rfl
  · cases v <;> cases w <;> simp only [typeOf, reduceCtorEq, Ty.opaque.injEq, Ty.obj.injEq, Ty.strcons.injEq] at h <;>
      first
      | rfl
      | (subst h; rfl)
      | (subst h; simp_all [LegalTop]; done)
      | (exfalso; subst h; revert hv hw; simp [LegalTop, builtinNames]; done)
      | skip
    all_goals exfalso
    all_goals first
      | exact absurd h (by decide)
      | exact hne _ _ (by decide) h
      | exact hne _ _ (by decide) h.symm
      | exact hw (h ▸ className_builtin _)
      | exact hv (h ▸ className_builtin _)


/-! ## Coherent caches -/

/-- What is assumed of handlers of the user.
* `cond` : the conditions of all the handlers look only at the type of the value;
* `asks` : the values with which the handlers call the dumper back can exist in Python. -/
structure DConfig.ByType (W : World) (C : DConfig) : Prop where
  cond : ∀ p ∈ C.handlers, ∀ v w, LegalTop W v → LegalTop W w → typeOf v = typeOf w → dEvalCond W C p.1 v = dEvalCond W C p.1 w
  asks : ∀ p ∈ C.handlers, ∀ i, p.2 = .custom i → ∀ v t, Legal W v → ∀ x u, (W.dumpCustom i v t).Asks x u → Legal W x

theorem dEvalCond_typeOf {c : DCond} (hc : ∀ i, c ≠ .custom i) {v w : Val} (hv : LegalTop W v) (hw : LegalTop W w) (h : typeOf v = typeOf w) :
    dEvalCond W C c v = dEvalCond W C c w := by
  have hne : ∀ (k : SeqKind) (x : String), x ∉ ["list", "tuple", "set", "frozenset"] → k.className ≠ x := by
    intro k x hx he; subst he; apply hx; cases k <;> decide
  cases c with
  | isBasic => simp only [dEvalCond, h]
  | isStrconstructed => simp only [dEvalCond, h]
  | custom i => exact absurd rfl (hc i)
  | _ =>
    cases v <;> cases w <;> simp only [typeOf, reduceCtorEq, Ty.opaque.injEq, Ty.obj.injEq, Ty.strcons.injEq] at h <;>
      first
      | rfl
      | (subst h; rfl)
      | (subst h; simp_all [LegalTop]; done)
      | (exfalso; subst h; revert hv hw; simp [LegalTop, builtinNames]; done)
      | skip
    all_goals exfalso
    all_goals first
      | exact absurd h (by decide)
      | exact hne _ _ (by decide) h
      | exact hne _ _ (by decide) h.symm
      | exact hw (h ▸ className_builtin _)
      | exact hv (h ▸ className_builtin _)

theorem DConfig.Default.byType (hd : C.Default) : C.ByType W := by
  constructor
  · intro p hp v w hv hw h
    refine dEvalCond_typeOf ?_ hv hw h
    rw [show C.handlers = defaultDHandlers from hd] at hp
    simp only [defaultDHandlers, List.mem_cons, List.not_mem_nil, or_false] at hp
    rintro i
    rcases hp with rfl | rfl | rfl | rfl | rfl | rfl | rfl | rfl | rfl | rfl | rfl <;> exact fun h => (by cases h)
  · intro p hp i hi
    rw [show C.handlers = defaultDHandlers from hd] at hp
    simp only [defaultDHandlers, List.mem_cons, List.not_mem_nil, or_false] at hp
    rcases hp with rfl | rfl | rfl | rfl | rfl | rfl | rfl | rfl | rfl | rfl | rfl <;> cases hi

theorem dPick_mem {v : Val} {f : DHandler} (hp : dPick W C v = .ok f) : ∃ p ∈ C.handlers, p.2 = f := by
  unfold dPick at hp
  split at hp
  · cases hp
  · split at hp
    · rename_i p hq
      cases hp
      exact ⟨p, List.mem_of_getElem? hq, rfl⟩
    · cases hp

theorem dIndexFrom_same {v w : Val} (hs : List (DCond × DHandler)) (h : ∀ p ∈ hs, dEvalCond W C p.1 v = dEvalCond W C p.1 w) : ∀ k i,
    dIndexFrom W C v hs k = .ok i → dIndexFrom W C w hs k = .ok i := by
  induction hs with
  | nil => intro k i hh; cases hh
  | cons p hs ih =>
    obtain ⟨c, f⟩ := p
    intro k i hh
    have hc := h (c, f) (by simp)
    have ih := ih (fun p hp => h p (by simp [hp]))
    unfold dIndexFrom at hh ⊢
    dsimp only at hc
    rw [hc] at hh
    split at hh
    · split at hh
      · cases hh
      · rename_i hr; rw [if_neg hr]; exact ih _ _ hh
    · exact hh
    · exact ih _ _ hh

theorem dPick_typeOf (hb : C.ByType W) {v w : Val} (hv : LegalTop W v) (hw : LegalTop W w) (h : typeOf v = typeOf w) {f : DHandler}
    (hp : dPick W C v = .ok f) : dPick W C w = .ok f := by
  unfold dPick at hp ⊢
  cases hi : dIndex W C v with
  | error e => rw [hi] at hp; cases hp
  | ok i =>
    have : dIndex W C w = .ok i := dIndexFrom_same _ (fun p hp => hb.cond p hp v w hv hw h) _ _ hi
    rw [hi] at hp
    rw [this]
    exact hp

/-- The caches of a dumper hold what a new lookup would find. -/
structure DCoh (W : World) (C : DConfig) (s : DState) : Prop where
  hc : ∀ t h, aget s.hc t = some h → ∀ v, LegalTop W v → typeOf v = t → dPick W C v = .ok h
  dc : ∀ c d, aget s.dc c = some d → d = mkDataDesc W (W.cls c)

theorem DCoh.new : DCoh W C {} := ⟨fun _ _ h => (by cases h), fun _ _ h => (by cases h)⟩

/-- Legal parts of legal values. -/
theorem Inside.trans {v w x : Val} (h : Inside W w x) (h' : Inside W v w) : Inside W v x := by
  induction h with
  | self => exact h'
  | elem _ h ih => exact .elem ih h
  | key _ h ih => exact .key ih h
  | val _ h ih => exact .val ih h
  | arg _ h ih => exact .arg ih h
  | item _ h ih => exact .item ih h
  | attr _ h ih => exact .attr ih h
  | member _ h ih => exact .member ih h
  | source _ ih => exact .source ih

theorem Legal.inside {v w : Val} (h : Legal W v) (hw : Inside W v w) : Legal W w := fun x hx => h x (hx.trans hw)
theorem Legal.top {v : Val} (h : Legal W v) : LegalTop W v := h v .self

/-- `x` is a direct part of `v`. -/
inductive PartOf (W : World) : Val → Val → Prop
  | elem {k xs x} : x ∈ xs → PartOf W (.seq k xs) x
  | key {kvs k x} : (k, x) ∈ kvs → PartOf W (.dict kvs) k
  | val {kvs k x} : (k, x) ∈ kvs → PartOf W (.dict kvs) x
  | arg {kvs n x} : (n, x) ∈ kvs → PartOf W (.ns kvs) x
  | item {c fs n x} : (n, x) ∈ fs → PartOf W (.nt c fs) x
  | attr {c fs n x} : (n, x) ∈ fs → PartOf W (.inst c fs) x
  | member {e n x} : aget (W.enm e).members n = some x → PartOf W (.enumv e n) x
  | source {p} : PartOf W (.pattern p) p

theorem PartOf.inside {v x : Val} (h : PartOf W v x) : Inside W v x := by
  cases h with
  | elem h => exact .elem .self h
  | key h => exact .key .self h
  | val h => exact .val .self h
  | arg h => exact .arg .self h
  | item h => exact .item .self h
  | attr h => exact .attr .self h
  | member h => exact .member .self h
  | source => exact .source .self

theorem Inside.head {v x : Val} (h : Inside W v x) : x = v ∨ ∃ p, PartOf W v p ∧ Inside W p x := by
  have step : ∀ w x, (w = v ∨ ∃ p, PartOf W v p ∧ Inside W p w) → PartOf W w x → x = v ∨ ∃ p, PartOf W v p ∧ Inside W p x := by
    rintro w x (rfl | ⟨p, h1, h2⟩) hx
    · exact Or.inr ⟨x, hx, .self⟩
    · exact Or.inr ⟨p, h1, hx.inside.trans h2⟩
  induction h with
  | self => exact Or.inl rfl
  | elem _ h ih => exact step _ _ ih (.elem h)
  | key _ h ih => exact step _ _ ih (.key h)
  | val _ h ih => exact step _ _ ih (.val h)
  | arg _ h ih => exact step _ _ ih (.arg h)
  | item _ h ih => exact step _ _ ih (.item h)
  | attr _ h ih => exact step _ _ ih (.attr h)
  | member _ h ih => exact step _ _ ih (.member h)
  | source _ ih => exact step _ _ ih .source

theorem Legal.of_parts {v : Val} (ht : LegalTop W v) (hp : ∀ x, PartOf W v x → Legal W x) : Legal W v := by
  intro x hx
  rcases hx.head with rfl | ⟨p, h1, h2⟩
  · exact ht
  · exact hp p h1 x h2

end TL
