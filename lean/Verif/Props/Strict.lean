import Mathlib.Data.List.Forall2
import Verif.Lemmas.Lax
import Verif.Props.Soundness
import Verif.Sample
/-!
# C23: `basiccast=False` never converts
-/

namespace TL

variable {W : World} {C : Config}

/-! ## Specification -/

/-- The types without constructors of their own: basic types, Any, Literal, containers, unions, NewType, forward references. -/
def PlainTy : Ty → Bool
  | .prim _ | .any | .lit _ | .coll _ _ | .tuple _ | .dict _ _ | .bare _ | .union _ | .fref _ | .newtype _ _ | .opaque _ => true
  | .enum _ | .obj _ | .dt _ | .timedelta | .pattern _ | .strcons _ => false

/-- `r` holds the same data as `v`, up to the classes of the containers: nothing was converted, at any depth.
A set drops repeated elements and a dictionary repeated keys; a fixed tuple drops what exceeds its size (unless `failonextra`). -/
inductive SameData (C : Config) : Val → Val → Prop
  | same {v} : SameData C v v
  | sequence {v xs ys k} : v.isDict = false → pyIter v = some xs → List.Forall₂ (SameData C) xs ys → k.isSet = false → SameData C v (.seq k ys)
  | set {v xs ys k} : v.isDict = false → pyIter v = some xs → List.Forall₂ (SameData C) xs ys → k.isSet = true →
      SameData C v (.seq k (ys.foldl setAdd []))
  | «prefix» {v xs extra ys} : v.isDict = false → pyIter v = some (xs ++ extra) → C.failonextra = false → List.Forall₂ (SameData C) xs ys →
      SameData C v (.tuple ys)
  | dict {v kvs ks xs} : DictData C v kvs → List.Forall₂ (SameData C) (kvs.map (·.1)) ks → List.Forall₂ (SameData C) (kvs.map (·.2)) xs →
      SameData C v (dictOf (ks.zip xs))

/-! ## Proof -/

/-- The handlers of plain types. -/
def plainHandler : Handler → Bool
  | .noneload | .basicload | .unionload | .tupleload | .listload | .dictload | .setload | .frozensetload | .forwardrefload | .literalload
  | .anyload | .newtypeload => true
  | _ => false

theorem picked_plain {t : Ty} {h : Handler} (hp : Picked W C t h) (ht : PlainTy t = true) : plainHandler h = true := by
  cases hp with
  | bare h => rcases h with rfl | rfl | rfl | rfl | rfl <;> rfl
  | coll => rename_i k _; cases k <;> rfl
  | _ => first | rfl | cases ht

section
variable {P : Handler → Val → Ty → Except Exc Val → Prop}

theorem IterSem.images {h : Handler} {k : SeqKind} {et : Ty} {v : Val} {t : Ty} {xs : List Val} {i : Nat} {acc : List Val}
    {o : Except Exc (List Val)} (hs : IterSem W C P h k et v t xs i acc o) {Q : Val → Val → Prop}
    (hq : ∀ x y, PassThrough C et x ∧ y = x ∨ P h x et (.ok y) → Q x y)
    (hstop : ∀ x e, P h x et (.error e) → e.cls ≠ .stopIteration)
    (ys : List Val) (ho : o = .ok ys) : ∃ zs, List.Forall₂ Q xs zs ∧ ys = if k.isSet then zs.foldl setAdd acc else acc ++ zs := by
  induction hs with
  | nil => cases ho; exact ⟨[], .nil, by split <;> simp⟩
  | @stop x xs i acc e h1 h2 h3 =>
    cases h1 with
    | call _ h => exact absurd h3 (hstop _ _ h)
  | unhashable => cases ho
  | elem => cases ho
  | @cons x xs i acc y acc' o h1 h2 _ ih =>
    obtain ⟨zs, hz, rfl⟩ := ih ho
    have hy : Q x y := by
      cases h1 with
      | pass h => exact hq _ _ (Or.inl ⟨h, rfl⟩)
      | call _ h => exact hq _ _ (Or.inr h)
    refine ⟨y :: zs, .cons hy hz, ?_⟩
    unfold collAdd at h2
    split at h2
    · rename_i hset
      split at h2
      · cases h2; simp [hset]
      · cases h2
    · rename_i hset
      cases h2; simp [hset]

theorem IterSem.not_stop {h : Handler} {k : SeqKind} {et : Ty} {v : Val} {t : Ty} {xs : List Val} {i : Nat} {acc : List Val}
    {o : Except Exc (List Val)} (hs : IterSem W C P h k et v t xs i acc o) (e : Exc) (ho : o = .error e) : e.cls ≠ .stopIteration := by
  induction hs with
  | nil => cases ho
  | stop => cases ho
  | unhashable => cases ho; exact elemError_not_stop _ _ _ _
  | elem => cases ho; exact elemError_not_stop _ _ _ _
  | cons _ _ _ ih => exact ih ho

theorem TupSem.images {v : Val} {t : Ty} {xs : List Val} {ts : List Ty} {i : Nat} {o : Except Exc (List Val)} (hs : TupSem W C P v t xs ts i o)
    {Q : Val → Val → Prop} (hq : ∀ h x u y, u ∈ ts → pick W C u = .ok h → (C.isBasic u = true ∧ typeOf x = u ∧ y = x) ∨ P h x u (.ok y) → Q x y)
    (hlen : ts.length ≤ xs.length) (ys : List Val) (ho : o = .ok ys) :
    ∃ xs1 xs2, xs = xs1 ++ xs2 ∧ xs1.length = ts.length ∧ List.Forall₂ Q xs1 ys := by
  induction hs generalizing ys with
  | nil_left =>
    cases ho
    rename_i us _
    have : us = [] := by cases us <;> simp_all
    subst this; exact ⟨[], [], rfl, rfl, .nil⟩
  | @nil_right xs _ => cases ho; exact ⟨[], xs, rfl, rfl, .nil⟩
  | later => cases ho
  | elem => cases ho
  | ok h1 _ ih =>
    cases ho
    obtain ⟨xs1, xs2, rfl, h3, h4⟩ := ih (fun h x u y hu => hq h x u y (by simp [hu])) (by simpa using hlen) _ rfl
    refine ⟨_ :: xs1, xs2, rfl, by simp [h3], .cons ?_ h4⟩
    cases h1 with
    | pass hp hb ht => exact hq _ _ _ _ (by simp) hp (Or.inl ⟨hb, ht, rfl⟩)
    | call hp _ h => exact hq _ _ _ _ (by simp) hp (Or.inr h)

theorem TupSem.not_stop {v : Val} {t : Ty} {xs : List Val} {ts : List Ty} {i : Nat} {o : Except Exc (List Val)} (hs : TupSem W C P v t xs ts i o)
    (e : Exc) (ho : o = .error e) : e.cls ≠ .stopIteration := by
  induction hs generalizing e with
  | nil_left => cases ho
  | nil_right => cases ho
  | later _ _ ih => cases ho; exact ih _ rfl
  | elem => cases ho; exact elemError_not_stop _ _ _ _
  | ok => cases ho

theorem FastSem.images {kt vt : Ty} {keyF : Handler} {valF : Option Handler} {kvs acc res : List (Val × Val)}
    (h : FastSem W C P kt vt keyF valF kvs acc res) {Q : Val → Val → Prop}
    (hk : ∀ x y, BasicInstance C kt x ∧ y = x ∨ P keyF x kt (.ok y) → Q x y)
    (hx : ∀ x y, BasicInstance C vt x ∧ y = x ∨ (∃ hv, valF = some hv ∧ P hv x vt (.ok y)) → Q x y) :
    ∃ ks xs, List.Forall₂ Q (kvs.map (·.1)) ks ∧ List.Forall₂ Q (kvs.map (·.2)) xs ∧ res = (ks.zip xs).foldl (fun acc p => dset acc p.1 p.2) acc := by
  induction h with
  | nil => exact ⟨[], [], .nil, .nil, rfl⟩
  | cons h1 h2 hh _ ih =>
    obtain ⟨ks, xs, h3, h4, rfl⟩ := ih
    refine ⟨_ :: ks, _ :: xs, .cons ?_ h3, .cons ?_ h4, rfl⟩
    · cases h1 with
      | pass h => exact hk _ _ (Or.inl ⟨h, rfl⟩)
      | call _ h1 h2 => cases h1; exact hk _ _ (Or.inr h2)
    · cases h2 with
      | pass h => exact hx _ _ (Or.inl ⟨h, rfl⟩)
      | call _ h1 h2 => exact hx _ _ (Or.inr ⟨_, h1, h2⟩)

theorem SlowSem.images {kt vt : Ty} {kvs acc : List (Val × Val)} {o : Except Exc (List (Val × Val))} (h : SlowSem W C P kt vt kvs acc o)
    {Q : Val → Val → Prop} (hk : ∀ h x y, pick W C kt = .ok h → P h x kt (.ok y) → Q x y)
    (hx : ∀ h x y, pick W C vt = .ok h → P h x vt (.ok y) → Q x y) (res : List (Val × Val)) (ho : o = .ok res) :
    ∃ ks xs, List.Forall₂ Q (kvs.map (·.1)) ks ∧ List.Forall₂ Q (kvs.map (·.2)) xs ∧ res = (ks.zip xs).foldl (fun acc p => dset acc p.1 p.2) acc := by
  induction h with
  | nil => cases ho; exact ⟨[], [], .nil, .nil, rfl⟩
  | cons h1 h2 hh _ ih =>
    obtain ⟨ks, xs, h3, h4, rfl⟩ := ih ho
    refine ⟨_ :: ks, _ :: xs, .cons ?_ h3, .cons ?_ h4, rfl⟩
    · cases h1 with | ok hp h => exact hk _ _ _ hp h
    · cases h2 with | ok hp h => exact hx _ _ _ hp h
  | key => cases ho
  | value => cases ho
  | unhashable => cases ho

theorem LoadSem.not_stop (hcc : CalmConditions W C) {x : Val} {t : Ty} {a : Option Annotation} {o : Except Exc Val} (h : LoadSem W C P x t a o) (e : Exc)
    (ho : o = .error e) : e.cls ≠ .stopIteration := by
  cases h with
  | noHandler hp => cases ho; rw [lookupExc_calm hcc hp]; exact fun h => by cases h
  | ok => cases ho
  | err =>
    cases ho
    unfold loadExc
    split
    · rename_i h; rw [Exc.cls_push]; intro hc; rw [Exc.isTL, hc] at h; cases h
    · exact fun h => by cases h

theorem SlowSem.not_stop (hcc : CalmConditions W C) {kt vt : Ty} {kvs acc : List (Val × Val)} {o : Except Exc (List (Val × Val))}
    (h : SlowSem W C P kt vt kvs acc o) (e : Exc) (ho : o = .error e) : e.cls ≠ .stopIteration := by
  induction h with
  | nil => cases ho
  | cons _ _ _ _ ih => exact ih ho
  | key h => cases ho; exact h.not_stop hcc _ rfl
  | value _ h => cases ho; exact h.not_stop hcc _ rfl
  | unhashable => cases ho; exact fun h => by cases h

theorem TrySem.not_stop (hcc : CalmConditions W C) {v : Val} {t : Ty} {us : List Ty} {c : Nat} {r : Val} {es : List Exc} {o : Except Exc (Nat × Val × List Exc)}
    (h : TrySem W C P v t us c r es o) (hp : ∀ h u e, u ∈ us → pick W C u = .ok h → P h v u (.error e) → e.cls ≠ .stopIteration) (e : Exc)
    (ho : o = .error e) : e.cls ≠ .stopIteration := by
  induction h with
  | nil => cases ho
  | win => cases ho
  | count _ _ _ ih => exact ih (fun h u e hu => hp h u e (by simp [hu])) ho
  | refuse _ _ _ ih => exact ih (fun h u e hu => hp h u e (by simp [hu])) ho
  | crash h _ =>
    cases ho
    cases h with
    | noHandler hp => rw [lookupExc_calm hcc hp]; exact fun h => by cases h
    | call hp' h => exact hp _ _ _ (by simp) hp' h
end

/-- What a step guarantees. -/
def StrictP (C : Config) (h : Handler) (v : Val) (_ : Ty) (o : Except Exc Val) : Prop :=
  plainHandler h = true → match o with
    | .ok r => SameData C v r
    | .error e => e.cls ≠ .stopIteration

theorem leaf_strict (hb : C.basiccast = false) {h : Handler} {v : Val} {t : Ty} {o : Except Exc Val} (hl : h.isLeaf = true) (hph : plainHandler h = true)
    (ho : ∀ rec : Rec, step W C rec h v t = M.lift o) : StrictP C h v t o := by
  intro _
  have key : step W C noRec h v t {} = M.lift o {} := by rw [ho]
  cases h <;> first | exact Bool.noConfusion hl | exact Bool.noConfusion hph | skip
  · unfold step noneload at key
    dsimp only at key
    split at key
    · rename_i hv; subst hv
      cases o with
      | ok r => cases key; exact .same
      | error e => cases key
    · cases o with
      | ok r => cases key
      | error e => cases key; exact fun h => by cases h
  · simp only [step, basicload, hb] at key
    split at key
    · cases o with
      | ok r => cases key
      | error e => cases key; exact fun h => by cases h
    · cases o with
      | ok r => cases key; exact .same
      | error e => cases key
  · simp only [step, literalload] at key
    split at key
    · split at key
      · cases o with
        | ok r => cases key; exact .same
        | error e => cases key
      · cases o with
        | ok r => cases key
        | error e => cases key; exact fun h => by cases h
    · cases o with
      | ok r => cases key
      | error e => cases key; exact fun h => by cases h
  · cases o with
    | ok r => cases key; exact .same
    | error e => cases key

theorem strict_step (hcc : CalmConditions W C) (hb : C.basiccast = false) {G : Ty → Prop} {F : String → Ty → Prop} (hcl : Closed W C G F)
    (hus : ∀ t, G t → C.Usual W t) (hG : ∀ t, G t → PlainTy t = true) (h : Handler) (v : Val) (t : Ty) (o : Except Exc Val) (hg : G t) (hs : StepSem W C F (StrictP C) h v t o) :
    StrictP C h v t o := by
  intro hph
  have hpl : ∀ {u h}, G u → pick W C u = .ok h → plainHandler h = true := fun hu hp => picked_plain (picked_of_stock ((hus _ hu).symm.trans hp)) (hG _ hu)
  have hload : ∀ {x u a o}, G u → LoadSem W C (StrictP C) x u a o → match o with
    | .ok r => SameData C x r
    | .error e => e.cls ≠ .stopIteration := by
    intro x u a o hu hl
    cases o with
    | error e => exact hl.not_stop hcc e rfl
    | ok r =>
      cases hl with
      | ok hp hP => exact hP (hpl hu hp)
  cases hs with
  | custom => cases hph
  | leaf hl ho => exact leaf_strict hb hl hph ho hph
  | mismatch => exact fun h => by cases h
  | iterDict => exact fun h => by cases h
  | iterLookup _ hp => dsimp only; rw [lookupExc_calm hcc hp]; exact fun h => by cases h
  | iterNot => exact fun h => by cases h
  | iterErr _ _ _ _ hi => exact hi.not_stop _ rfl
  | @iter _ _ k k' et h' xs ys hk hnd hx hp hi =>
    have hge := hcl.coll _ _ hg
    obtain ⟨zs, hz, rfl⟩ := hi.images (Q := SameData C) (by
      rintro x y (⟨_, rfl⟩ | hP)
      · exact .same
      · exact hP (hpl hge hp)) (fun x e hP => hP (hpl hge hp)) _ rfl
    cases hset : k.isSet with
    | true => exact .set hnd hx hz hset
    | false => exact .sequence hnd hx (by simpa using hz) hset
  | tupDict => exact fun h => by cases h
  | tupLen => exact fun h => by cases h
  | tupSize => exact fun h => by cases h
  | tupErr _ _ _ hi => exact hi.not_stop _ rfl
  | @tup _ ts xs ys hnd hx hlen hfoe hi =>
    obtain ⟨xs1, xs2, rfl, hl1, hz⟩ := hi.images (Q := SameData C) (by
      rintro h x u y hu hp (⟨_, _, rfl⟩ | hP)
      · exact .same
      · exact hP (hpl (hcl.tuple _ hg u hu) hp)) hlen _ rfl
    cases hf : C.failonextra with
    | false => exact .prefix hnd hx hf hz
    | true =>
      have := hfoe hf
      have h0 : xs2 = [] := by
        rw [List.length_append, hl1] at this
        exact List.length_eq_zero_iff.1 (by omega)
      subst h0
      exact .sequence hnd (by simpa using hx) hz rfl
  | dictLookup _ hp => dsimp only; rw [lookupExc_calm hcc hp]; exact fun h => by cases h
  | dictNot => exact fun h => by cases h
  | @dictFast _ kt vt kvs hk hv keyF valF res hdata hpk hpv hcase hf =>
    have h1 := hpl (hcl.dictKey _ _ hg) hpk
    have h2 := hpl (hcl.dictVal _ _ hg) hpv
    obtain ⟨ks, xs, h3, h4, rfl⟩ := hf.images (Q := SameData C) (by
      rintro x y (⟨_, rfl⟩ | hP)
      · exact .same
      · refine hP ?_
        rcases hcase with ⟨rfl, _⟩ | ⟨rfl, _⟩
        · exact h1
        · exact h2) (by
      rintro x y (⟨_, rfl⟩ | ⟨hv', he, hP⟩)
      · exact .same
      · refine hP ?_
        rcases hcase with ⟨_, rfl⟩ | ⟨_, rfl⟩
        · cases he; exact h2
        · cases he)
    exact .dict hdata h3 h4
  | @dictSlow _ kt vt kvs hk hv res hdata hpk hpv hf =>
    obtain ⟨ks, xs, h3, h4, rfl⟩ := hf.images (Q := SameData C) (fun h x y hp hP => hP (hpl (hcl.dictKey _ _ hg) hp))
      (fun h x y hp hP => hP (hpl (hcl.dictVal _ _ hg) hp)) _ rfl
    exact .dict hdata h3 h4
  | dictErr _ _ _ hf =>
    dsimp only
    split
    · exact fun h => by cases h
    · exact hf.not_stop hcc _ rfl
  | @obj _ c _ _ => have := hG _ hg; cases this
  | unionBasic => exact .same
  | unionTag => exact fun h => by cases h
  | unionCrash _ hord htry =>
    refine htry.not_stop hcc (fun h u e hu hp hP => hP (hpl (hcl.union _ hg u (hord.perm.mem_iff.1 hu)) hp)) _ rfl
  | unionOne _ hord htry =>
    obtain ⟨u, hu, hcall⟩ := (htry.winner _ _ _ rfl).resolve_left (fun h => by cases h.1)
    cases hcall with
    | call hp hP => exact hP (hpl (hcl.union _ hg u (hord.perm.mem_iff.1 hu)) hp)
  | unionNone => exact fun h => by cases h
  | unionMany => exact fun h => by cases h
  | enumMember => cases hG _ hg
  | enumHints => cases hG _ hg
  | frefDisabled => exact fun h => by cases h
  | frefUnknown => exact fun h => by cases h
  | fref hF _ hl => exact hload (hcl.bound _ _ hF) hl
  | newtype hl => exact hload (hcl.newtype _ _ hg) hl

/-! ## C23 -/

/-- **C23** With `basiccast=False` a basic type accepts exactly its own instances, and returns them unchanged. -/
theorem C23_basic (hd : C.Default) (hb : C.basiccast = false) {s : LState} (hs : Reachable W C s) {p : Prim} (hp : p ∈ C.basictypes) (v r : Val) :
    (∃ s', Loads W C s v (.prim p) r s') ↔ typeOf v = .prim p ∧ r = v := by
  by_cases hn : p = .none
  · subst hn
    have key : ∀ v, typeOf v = .prim .none ↔ v = .none := by intro v; cases v <;> simp [typeOf]
    rw [show (∃ s', Loads W C s v (.prim .none) r s') ↔ v = .none ∧ r = .none from (C28_none hd hs v r).1, key]
    constructor
    · rintro ⟨rfl, rfl⟩; exact ⟨rfl, rfl⟩
    · rintro ⟨rfl, rfl⟩; exact ⟨rfl, rfl⟩
  · have hx : ∀ rec s, step W C rec .basicload v (.prim p) s =
        M.lift (if typeOf v = .prim p then .ok v else .error (mkExc .tlValue (.wrongType v (.prim p)) v (.prim p))) s := by
      intro rec s
      simp only [step, basicload, hb]
      by_cases h : typeOf v = .prim p <;> simp [h] <;> rfl
    rw [leaf_loads hs.coh (pick_basic hd hp hn) hx]
    by_cases h : typeOf v = .prim p <;> simp [h, eq_comm]

/-- **C23** With `basiccast=False` loading into types without constructors never converts anything, at any depth: the result holds the same data. -/
theorem C23_never_converts (hd : C.Default) (hb : C.basiccast = false) {s s' : LState} (hs : Reachable W C s) {v : Val} {t : Ty} {r : Val}
    (ht : ∀ u, Meets W C s t u → PlainTy u = true) (h : Loads W C s v t r s') : SameData C v r := by
  obtain ⟨hh, hp, hP⟩ := h.sem (Meets.closed s t) (strict_step hd.calm hb (Meets.closed s t) (fun _ _ => hd.usual) ht) (hs.good_meets t) .self
  exact hP (picked_plain (picked hd hp) (ht t .self))

/-- **C23** for any handler list, if the types met while loading are served as by the default list, and conditions do not raise: handlers that the user has
added for other types make no difference. -/
theorem C23_user (hcc : CalmConditions W C) (hb : C.basiccast = false) {s s' : LState} (hs : Reachable W C s) {v : Val} {t : Ty} {r : Val}
    (hus : ∀ u, Meets W C s t u → C.Usual W u) (ht : ∀ u, Meets W C s t u → PlainTy u = true) (h : Loads W C s v t r s') : SameData C v r := by
  obtain ⟨hh, hp, hP⟩ := h.sem (Meets.closed s t) (strict_step hcc hb (Meets.closed s t) hus ht) (hs.good_meets t) .self
  exact hP (picked_plain (picked_of_stock ((hus t .self).symm.trans hp)) (ht t .self))

/-! ## The hypotheses are met -/

/-- The default configuration with `basiccast=False`. -/
def Sample.strict : Config := { Sample.C with basiccast := false }

/-- `Dict[str, Tuple[Optional[int], ...]]` meets only plain types, and `{'a': [1, None]}` loads to `{'a': (1, None)}`. -/
example : (∀ u, Meets Sample.W Sample.C (fresh []) (.dict (.prim .str) (.coll .tuple (.union [.prim .int, .prim .none]))) u → PlainTy u = true) ∧
    ∃ s', Loads Sample.W Sample.strict (fresh []) (.dict [(.str "a", .list [.int 1, .none])])
      (.dict (.prim .str) (.coll .tuple (.union [.prim .int, .prim .none]))) (.dict [(.str "a", .tuple [.int 1, .none])]) s' := by
  refine ⟨?_, _, 9, rfl⟩
  have key : ∀ u, Meets Sample.W Sample.C (fresh []) (.dict (.prim .str) (.coll .tuple (.union [.prim .int, .prim .none]))) u →
      u = .dict (.prim .str) (.coll .tuple (.union [.prim .int, .prim .none])) ∨ u = .prim .str ∨
      u = .coll .tuple (.union [.prim .int, .prim .none]) ∨ u = .union [.prim .int, .prim .none] ∨ u = .prim .int ∨ u = .prim .none := by
    intro u h
    induction h with
    | known h => obtain ⟨fr, h1, h2⟩ := h; simp [fresh] at h1; subst h1; cases h2
    | custom hi _ _ => exact absurd hi (not_installed (C := Sample.C) rfl _)
    | _ => simp_all
  intro u hu
  rcases key u hu with rfl | rfl | rfl | rfl | rfl | rfl <;> rfl

/-- `SameData` distinguishes values: a number is not the same data as its text. -/
example : ¬ SameData Sample.strict (.int 5) (.str "5") := by intro h; cases h
example : ¬ SameData Sample.strict (.list [.int 1]) (.list [.bool true]) := by
  intro h
  generalize hr : Val.list [.bool true] = r at h
  cases h with
  | same => cases hr
  | sequence _ hp hf _ =>
    cases hp; cases hr
    cases hf with
    | cons h _ => cases h
  | set _ _ _ hk => injection hr with h1 _; subst h1; cases hk
  | «prefix» => cases hr
  | dict => cases hr

/-- With basiccast the same load converts: the flag matters. -/
theorem C23_basiccast_counterexample : ∃ s', Loads Sample.W Sample.C (fresh []) (.list [.str "5"]) (.coll .list (.prim .int)) (.list [.int 5]) s' ∧
    ∃ e s', Raises Sample.W Sample.strict (fresh []) (.list [.str "5"]) (.coll .list (.prim .int)) e s' :=
  ⟨_, ⟨9, rfl⟩, _, _, 9, rfl⟩

/-- A loader with `basiccast=False` and a handler of the user for other types. -/
def Sample.strictB : Config := { Sample.CB with basiccast := false }

/-- C23: a list of optional integers, by a loader with a handler of the user. -/
example {v r : Val} {s' : LState} (h : Loads Sample.WB Sample.strictB (fresh []) v (.coll .list (.union [.prim .int, .prim .none])) r s') :
    SameData Sample.strictB v r := by
  have key : ∀ u, Meets Sample.WB Sample.strictB (fresh []) (.coll .list (.union [.prim .int, .prim .none])) u →
      u = .coll .list (.union [.prim .int, .prim .none]) ∨ u = .union [.prim .int, .prim .none] ∨ u = .prim .int ∨ u = .prim .none := by
    intro u h
    induction h with
    | known h => obtain ⟨fr, h1, h2⟩ := h; simp [fresh] at h1; subst h1; cases h2
    | @custom i x u y w hi _ ha ih =>
      have ha : (Sample.callback x u).Asks y w := ha
      rcases ih with rfl | rfl | rfl | rfl <;> cases ha
    | _ => simp_all
  refine C23_user (Or.inr ?_) rfl (.new (some []) []) (fun u hu => ?_) (fun u hu => ?_) h
  · intro p hp t x
    rcases List.mem_cons.1 hp with rfl | hp
    · exact fun h => by cases h
    · rcases Config.Default.calm (W := Sample.WB) (C := Sample.C) rfl with h | h
      · cases h
      · exact fun he => h p hp t x (by rw [← he]; cases p.1 <;> rfl)
  · rcases key u hu with rfl | rfl | rfl | rfl <;> rfl
  · rcases key u hu with rfl | rfl | rfl | rfl <;> rfl

/-- It does load one. -/
example : ∃ s', Loads Sample.WB Sample.strictB (fresh []) (.list [.int 1, .none]) (.coll .list (.union [.prim .int, .prim .none])) (.list [.int 1, .none]) s' :=
  ⟨_, 9, rfl⟩

end TL
