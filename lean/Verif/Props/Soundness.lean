import Verif.Lemmas.Sem
import Verif.Props.Objects
import Verif.Props.Simple
import Verif.Props.Dicts
import Verif.Props.Dispatch
import Verif.Sample
/-!
# C03: a loaded value has the requested type
-/

namespace TL

variable {W : World} {C : Config}

/-! ## Specification -/

/-- What is assumed of the Python classes outside typedload: constructors return instances of their class, ISO parsing returns valid
dates, timedelta constructors valid timedeltas. -/
structure World.Lawful (W : World) : Prop where
  prim : ∀ p v r, W.call (.prim p) v = .ok r → typeOf r = .prim p
  strcons : ∀ c v r, W.call (.strcons c) v = .ok r → ∃ x, r = .strobj c x
  iso : ∀ k x v, W.fromIso k x = .ok v → match k with
    | .date => ∃ y m d, v = .date y m d ∧ IsDate y m d
    | .time => ∃ h mi s us tz, v = .time h mi s us tz ∧ IsTime h mi s us
    | .datetime => ∃ y m d h mi s us tz, v = .datetime y m d h mi s us tz ∧ IsDate y m d ∧ IsTime h mi s us
  td : ∀ f us, W.tdFloat f = .ok us → validTimedelta us = true

/-- The elements of a set: hashable and pairwise different. -/
def SetLike (W : World) (xs : List Val) : Prop := (∀ x ∈ xs, W.hash x = true) ∧ xs.Pairwise (fun a b => pyEq a b = false)

/-- The user declares no further values. -/
def NoUser : Ty → Val → Prop := fun _ _ => False

mutual
/-- `HasType t v`: the value `v` is an instance of the annotation `t`, where `F n u` says that a forward reference to `n` can denote `u`,
and `U t v` that the user counts `v` among the values of `t` (say, because of a handler that returns it).
Objects: the constructor was given, for every field, a value of the type of the field, or the default of the field.
A value of a basic type is not an instance of a subclass (`True` is no `int`), except directly in a collection or dictionary. -/
inductive HasType (W : World) (U : Ty → Val → Prop) (F : String → Ty → Prop) : Ty → Val → Prop
  | user {t v} : U t v → HasType W U F t v
  | prim {p v} : typeOf v = .prim p → HasType W U F (.prim p) v
  | any {v} : HasType W U F .any v
  | lit {vs v} : pyIn v vs = true → HasType W U F (.lit vs) v
  | enum {e n x} : (n, x) ∈ (W.enm e).members → HasType W U F (.enum e) (.enumv e n)
  | coll {k t xs} : (∀ x ∈ xs, ElemType W U F t x) → (k.isSet = true → SetLike W xs) → HasType W U F (.coll k t) (.seq k xs)
  | tuple {ts xs} : xs.length = ts.length → (∀ (i : Nat) x t, xs[i]? = some x → ts[i]? = some t → HasType W U F t x) →
      HasType W U F (.tuple ts) (.tuple xs)
  | dict {kt vt kvs} : (∀ p ∈ kvs, ElemType W U F kt p.1) → (∀ p ∈ kvs, ElemType W U F vt p.2) → SetLike W (kvs.map (·.1)) →
      HasType W U F (.dict kt vt) (.dict kvs)
  | union {ts t v} : t ∈ ts → HasType W U F t v → HasType W U F (.union ts) v
  | fref {n t v} : F n t → HasType W U F t v → HasType W U F (.fref n) v
  | newtype {n t v} : HasType W U F t v → HasType W U F (.newtype n t) v
  | date {y m d} : IsDate y m d → HasType W U F (.dt .date) (.date y m d)
  | time {h mi s us tz} : IsTime h mi s us → HasType W U F (.dt .time) (.time h mi s us tz)
  | datetime {y m d h mi s us tz} : IsDate y m d → IsTime h mi s us → HasType W U F (.dt .datetime) (.datetime y m d h mi s us tz)
  | timedelta {us} : validTimedelta us = true → HasType W U F .timedelta (.timedelta us)
  | pattern {a x} : HasType W U F (.pattern a) (.pattern x)
  | strcons {c x} : HasType W U F (.strcons c) (.strobj c x)
  | typeddict {c} {kvs : List (String × Val)} : (W.cls c).kind = .typeddict →
      (∀ p ∈ kvs, FieldValue W U F c p.1 p.2) →
      (∀ f ∈ (W.cls c).fields, f.required = true → f.notRequired = false → f.name ∈ kvs.map (·.1)) →
      (kvs.map (·.1)).Nodup → HasType W U F (.obj c) (.dict (kvs.map (fun p => (.str p.1, p.2))))
  | obj {c} {fs : List (String × Val)} {r} : (W.cls c).kind ≠ .typeddict →
      (∀ p ∈ fs, FieldValue W U F c p.1 p.2) →
      (∀ f ∈ (W.cls c).fields, f.init = true ∨ f.default ≠ none → f.name ∈ fs.map (·.1)) →
      Built W c fs r → HasType W U F (.obj c) r
/-- `ElemType t v`: `v` is a legitimate element (or key, or value) of a collection (or dictionary) of `t`: instances of subclasses of basic types, that is
bools among ints, are left alone. -/
inductive ElemType (W : World) (U : Ty → Val → Prop) (F : String → Ty → Prop) : Ty → Val → Prop
  | typed {t v} : HasType W U F t v → ElemType W U F t v
  | subclass {p v} : isInst p v = true → ElemType W U F (.prim p) v
/-- `FieldValue c n v`: `v` is a legitimate value of the field `n` of the class `c`: of the type of the field, or its default. -/
inductive FieldValue (W : World) (U : Ty → Val → Prop) (F : String → Ty → Prop) : Nat → String → Val → Prop
  | typed {c f t v} : f ∈ (W.cls c).fields → FieldTy (W.cls c).kind f t → HasType W U F t v → FieldValue W U F c f.name v
  | default {c f v} : (W.cls c).kind ≠ .typeddict → f ∈ (W.cls c).fields → f.default = some v → FieldValue W U F c f.name v
end

/-! ## Proof -/

theorem setLike_setAdd {xs : List Val} {x : Val} (h : SetLike W xs) (hx : W.hash x = true) : SetLike W (setAdd xs x) := by
  unfold setAdd
  split
  · exact h
  · rename_i hn
    refine ⟨?_, ?_⟩
    · intro y hy
      rcases List.mem_append.1 hy with hy | hy
      · exact h.1 y hy
      · simp at hy; subst hy; exact hx
    · rw [List.pairwise_append]
      refine ⟨h.2, by simp, ?_⟩
      intro a ha b hb
      simp at hb; subst hb
      cases hq : pyEq a b with
      | false => rfl
      | true => exact absurd (List.any_eq_true.2 ⟨a, ha, hq⟩) hn

theorem dset_keys (acc : List (Val × Val)) (k x : Val) : (dset acc k x).map (·.1) = setAdd (acc.map (·.1)) k := by
  induction acc with
  | nil => rfl
  | cons p acc ih =>
    obtain ⟨k', x'⟩ := p
    unfold dset
    by_cases h : pyEq k' k = true
    · simp [h, setAdd, pyIn]
    · have h' : pyEq k' k = false := by simpa using h
      simp only [h', Bool.false_eq_true, if_false, List.map_cons, ih]
      simp only [setAdd, pyIn, List.any_cons, h', Bool.false_or]
      split
      · rename_i h1; simp only [h1, if_true]
      · rename_i h1; simp [h1]

theorem dset_mem {acc : List (Val × Val)} {k x : Val} {p : Val × Val} (h : p ∈ dset acc k x) :
    (p.1 = k ∨ ∃ q ∈ acc, p.1 = q.1) ∧ (p.2 = x ∨ ∃ q ∈ acc, p.2 = q.2) := by
  induction acc with
  | nil => simp [dset] at h; subst h; exact ⟨Or.inl rfl, Or.inl rfl⟩
  | cons q acc ih =>
    obtain ⟨k', x'⟩ := q
    unfold dset at h
    split at h
    · rcases List.mem_cons.1 h with rfl | h
      · exact ⟨Or.inr ⟨(k', x'), by simp, rfl⟩, Or.inl rfl⟩
      · exact ⟨Or.inr ⟨p, by simp [h], rfl⟩, Or.inr ⟨p, by simp [h], rfl⟩⟩
    · rcases List.mem_cons.1 h with rfl | h
      · exact ⟨Or.inr ⟨_, by simp, rfl⟩, Or.inr ⟨_, by simp, rfl⟩⟩
      · obtain ⟨h1, h2⟩ := ih h
        constructor
        · rcases h1 with h1 | ⟨q, hq, h1⟩
          · exact Or.inl h1
          · exact Or.inr ⟨q, by simp [hq], h1⟩
        · rcases h2 with h2 | ⟨q, hq, h2⟩
          · exact Or.inl h2
          · exact Or.inr ⟨q, by simp [hq], h2⟩

/-- A dictionary under construction. -/
structure DictAcc (W : World) (Qk Qv : Val → Prop) (acc : List (Val × Val)) : Prop where
  keys : ∀ p ∈ acc, Qk p.1
  vals : ∀ p ∈ acc, Qv p.2
  set : SetLike W (acc.map (·.1))

theorem DictAcc.nil {Qk Qv : Val → Prop} : DictAcc W Qk Qv [] := ⟨by simp, by simp, by simp [SetLike]⟩
theorem DictAcc.add {Qk Qv : Val → Prop} {acc : List (Val × Val)} (h : DictAcc W Qk Qv acc) {k x : Val} (hk : Qk k) (hx : Qv x)
    (hh : W.hash k = true) : DictAcc W Qk Qv (dset acc k x) where
  keys p hp := by
    rcases (dset_mem hp).1 with h1 | ⟨q, hq, h1⟩
    · rw [h1]; exact hk
    · rw [h1]; exact h.keys q hq
  vals p hp := by
    rcases (dset_mem hp).2 with h1 | ⟨q, hq, h1⟩
    · rw [h1]; exact hx
    · rw [h1]; exact h.vals q hq
  set := by rw [dset_keys]; exact setLike_setAdd h.set hh

section
variable {P : Handler → Val → Ty → Except Exc Val → Prop}

theorem FastSem.acc {kt vt : Ty} {keyF hv : Handler} {kvs acc res : List (Val × Val)} (h : FastSem W C P kt vt keyF (some hv) kvs acc res)
    {Qk Qv : Val → Prop} (hk : ∀ x y, BasicInstance C kt x ∧ y = x ∨ P keyF x kt (.ok y) → Qk y)
    (hx : ∀ x y, BasicInstance C vt x ∧ y = x ∨ P hv x vt (.ok y) → Qv y) (ha : DictAcc W Qk Qv acc) : DictAcc W Qk Qv res := by
  generalize hvf : some hv = vf at h
  induction h with
  | nil => exact ha
  | cons h1 h2 hh _ ih =>
    refine ih (ha.add ?_ ?_ hh)
    · cases h1 with
      | pass h => exact hk _ _ (Or.inl ⟨h, rfl⟩)
      | call _ h1 h2 => cases h1; exact hk _ _ (Or.inr h2)
    · cases h2 with
      | pass h => exact hx _ _ (Or.inl ⟨h, rfl⟩)
      | call _ h1 h2 => subst hvf; cases h1; exact hx _ _ (Or.inr h2)

theorem SlowSem.acc {kt vt : Ty} {kvs acc : List (Val × Val)} {o : Except Exc (List (Val × Val))} (h : SlowSem W C P kt vt kvs acc o)
    {Qk Qv : Val → Prop} (hk : ∀ h x y, pick W C kt = .ok h → P h x kt (.ok y) → Qk y)
    (hx : ∀ h x y, pick W C vt = .ok h → P h x vt (.ok y) → Qv y) (ha : DictAcc W Qk Qv acc) (res : List (Val × Val)) (ho : o = .ok res) :
    DictAcc W Qk Qv res := by
  induction h with
  | nil => cases ho; exact ha
  | cons h1 h2 hh _ ih =>
    refine ih (ha.add ?_ ?_ hh) ho
    · cases h1 with | ok hp h => exact hk _ _ _ hp h
    · cases h2 with | ok hp h => exact hx _ _ _ hp h
  | key => cases ho
  | value => cases ho
  | unhashable => cases ho

theorem IterSem.elems {h : Handler} {k : SeqKind} {et : Ty} {v : Val} {t : Ty} {xs : List Val} {i : Nat} {acc : List Val}
    {o : Except Exc (List Val)} (hs : IterSem W C P h k et v t xs i acc o) {Q : Val → Prop}
    (hq : ∀ x y, PassThrough C et x ∧ y = x ∨ P h x et (.ok y) → Q y) (ha : (∀ x ∈ acc, Q x) ∧ (k.isSet = true → SetLike W acc))
    (ys : List Val) (ho : o = .ok ys) : (∀ x ∈ ys, Q x) ∧ (k.isSet = true → SetLike W ys) := by
  induction hs with
  | nil => cases ho; exact ha
  | stop => cases ho; exact ha
  | unhashable => cases ho
  | elem => cases ho
  | cons h1 h2 _ ih =>
    rename_i x xs i acc y acc' o _
    refine ih ?_ ho
    have hy : Q y := by
      cases h1 with
      | pass h => exact hq _ _ (Or.inl ⟨h, rfl⟩)
      | call _ h => exact hq _ _ (Or.inr h)
    unfold collAdd at h2
    split at h2
    · rename_i hset
      split at h2
      · rename_i hh
        cases h2
        refine ⟨?_, fun _ => setLike_setAdd (ha.2 hset) hh⟩
        intro z hz
        unfold setAdd at hz
        split at hz
        · exact ha.1 z hz
        · rcases List.mem_append.1 hz with hz | hz
          · exact ha.1 z hz
          · simp at hz; subst hz; exact hy
      · cases h2
    · rename_i hset
      cases h2
      refine ⟨?_, fun h => absurd h hset⟩
      intro z hz
      rcases List.mem_append.1 hz with hz | hz
      · exact ha.1 z hz
      · simp at hz; subst hz; exact hy

theorem TupSem.elems {v : Val} {t : Ty} {xs : List Val} {ts : List Ty} {i : Nat} {o : Except Exc (List Val)} (hs : TupSem W C P v t xs ts i o)
    {Q : Ty → Val → Prop} (hq : ∀ h x u y, u ∈ ts → pick W C u = .ok h → (C.isBasic u = true ∧ typeOf x = u ∧ y = x) ∨ P h x u (.ok y) → Q u y)
    (hlen : ts.length ≤ xs.length) (ys : List Val) (ho : o = .ok ys) :
    ys.length = ts.length ∧ ∀ (i : Nat) x u, ys[i]? = some x → ts[i]? = some u → Q u x := by
  induction hs generalizing ys with
  | nil_left =>
    cases ho
    rename_i us _
    have : us = [] := by cases us <;> simp_all
    subst this; simp
  | nil_right => cases ho; simp
  | later => cases ho
  | elem => cases ho
  | ok h1 _ ih =>
    cases ho
    obtain ⟨h3, h4⟩ := ih (fun h x u y hu => hq h x u y (by simp [hu])) (by simpa using hlen) _ rfl
    refine ⟨by simp [h3], ?_⟩
    intro j x u hx hu
    cases j with
    | zero =>
      simp at hx hu; subst hx hu
      cases h1 with
      | pass hp hb ht => exact hq _ _ _ _ (by simp) hp (Or.inl ⟨hb, ht, rfl⟩)
      | call hp _ h => exact hq _ _ _ _ (by simp) hp (Or.inr h)
    | succ j => exact h4 j x u (by simpa using hx) (by simpa using hu)

theorem FieldsSem.entries {info : ObjInfo} {v : Val} {t : Ty} {kvs : List (Val × Val)} {acc : List (String × Val)}
    {o : Except Exc (List (String × Val))} (hs : FieldsSem W C P info v t kvs acc o) {Q : String → Val → Prop}
    (hq : ∀ m ft h x y, aget info.hints m = some ft → pick W C ft = .ok h → P h x ft (.ok y) → Q m y)
    (ha : ∀ p ∈ acc, Q p.1 p.2) (hn : (acc.map (·.1)).Nodup) (res : List (String × Val)) (ho : o = .ok res) :
    (∀ p ∈ res, Q p.1 p.2) ∧ (res.map (·.1)).Nodup ∧ (∀ m, m ∈ acc.map (·.1) → m ∈ res.map (·.1)) ∧
      ∀ m ∈ info.fields, m ∈ strKeys kvs → m ∈ res.map (·.1) := by
  induction hs generalizing res with
  | nil => cases ho; exact ⟨ha, hn, fun m h => h, fun m _ h => by simp [strKeys] at h⟩
  | other hk _ ih =>
    obtain ⟨h1, h2, h3, h4⟩ := ih ha hn res ho
    refine ⟨h1, h2, h3, ?_⟩
    intro m hm hk'
    refine h4 m hm ?_
    rw [mem_strKeys] at hk' ⊢
    obtain ⟨x, hx⟩ := hk'
    rcases List.mem_cons.1 hx with h | h
    · cases h; simp [isFieldKey] at hk; exact absurd hm hk
    · exact ⟨x, h⟩
  | field hm hh hp hP _ ih =>
    rename_i m x rest acc ft h y o _
    obtain ⟨h1, h2, h3, h4⟩ := ih (by
      intro p hp'
      rcases mem_aset hp' with h | h
      · rw [h]; exact hq _ _ _ _ _ hh hp hP
      · exact ha p h) (map_fst_aset_nodup hn _ _) res ho
    refine ⟨h1, h2, ?_, ?_⟩
    · intro m' hm'
      exact h3 m' (by rw [← aget_isSome_iff, aget_aset] ; split <;> simp_all [aget_isSome_iff])
    · intro m' hm' hk'
      rw [mem_strKeys] at hk'
      obtain ⟨x', hx'⟩ := hk'
      rcases List.mem_cons.1 hx' with h | h
      · cases h; exact h3 _ (by rw [← aget_isSome_iff, aget_aset]; simp)
      · exact h4 m' hm' (mem_strKeys.2 ⟨x', h⟩)
  | fieldErr => cases ho
  | noHandler => cases ho

theorem TrySem.winner {v : Val} {t : Ty} {us : List Ty} {c : Nat} {r : Val} {es : List Exc} {o : Except Exc (Nat × Val × List Exc)}
    (h : TrySem W C P v t us c r es o) (c' : Nat) (r' : Val) (es' : List Exc) (ho : o = .ok (c', r', es')) :
    (c' = c ∧ r' = r) ∨ ∃ u ∈ us, CallSem W C P (mkExc .tlValue (.noHandlerIn u t) v u) v u (.ok r') := by
  induction h with
  | nil => cases ho; exact Or.inl ⟨rfl, rfl⟩
  | win h _ => cases ho; exact Or.inr ⟨_, by simp, h⟩
  | count h _ _ ih =>
    rcases ih ho with ⟨_, rfl⟩ | ⟨u, hu, h'⟩
    · exact Or.inr ⟨_, by simp, h⟩
    · exact Or.inr ⟨u, by simp [hu], h'⟩
  | refuse _ _ _ ih =>
    rcases ih ho with h | ⟨u, hu, h'⟩
    · exact Or.inl h
    · exact Or.inr ⟨u, by simp [hu], h'⟩
  | crash => cases ho

theorem HintsSem.member {v : Val} {e : Nat} {us : List Ty} {es : List Exc} {o : Except Exc Val} (h : HintsSem W C P v e us es o)
    (r : Val) (ho : o = .ok r) : ∃ x, enumCall W e x = some r := by
  induction h with
  | nil => cases ho
  | ok _ hm => cases ho; exact ⟨_, hm⟩
  | noMember _ _ _ ih => exact ih ho
  | err _ _ ih => exact ih ho
end

/-- A fixed environment in which to evaluate handlers that do not call others. -/
def noRec : Rec := fun _ _ _ _ => .div

theorem leaf_ok {h : Handler} {v : Val} {t : Ty} {r : Val} (ho : ∀ rec : Rec, step W C rec h v t = M.lift (.ok r)) :
    step W C noRec h v t {} = .ok r {} := by rw [ho]; rfl
theorem leaf_err {h : Handler} {v : Val} {t : Ty} {e : Exc} (ho : ∀ rec : Rec, step W C rec h v t = M.lift (.error e)) :
    step W C noRec h v t {} = .err e {} := by rw [ho]; rfl

theorem typeOf_isInst {p : Prim} {v : Val} (h : typeOf v = .prim p) : isInst p v = true := by
  cases v <;> simp [typeOf] at h <;> subst h <;> rfl

theorem dtParse_typed (hl : W.Lawful) {U : Ty → Val → Prop} {F : String → Ty → Prop} {k : DtKind} {v r : Val} (h : dtParse W k v = .ok r) : HasType W U F (.dt k) r := by
  have hcall : ∀ xs, dtCall k xs = .ok r → HasType W U F (.dt k) r := by
    intro xs h
    unfold dtCall at h
    cases k with
    | date =>
      dsimp only at h
      split at h
      · cases h
      · split at h
        · cases h
        · split at h
          · rename_i hv; cases h; exact .date ((validDate_iff _ _ _).1 hv)
          · cases h
        · cases h
    | time =>
      dsimp only at h
      split at h
      · cases h
      · split at h
        · cases h
        · split at h
          · rename_i hv; cases h; exact .time ((validTime_iff _ _ _ _).1 hv)
          · cases h
    | datetime =>
      dsimp only at h
      split at h
      · cases h
      · split at h
        · cases h
        · split at h
          · rename_i hv; cases h
            simp only [Bool.and_eq_true] at hv
            exact .datetime ((validDate_iff _ _ _).1 hv.1) ((validTime_iff _ _ _ _).1 hv.2)
          · cases h
  have hiter : (match pyIter v with
      | some xs => dtCall k xs
      | none => .error .type) = .ok r → HasType W U F (.dt k) r := by
    intro h
    cases hi : pyIter v with
    | none => rw [hi] at h; cases h
    | some xs => rw [hi] at h; exact hcall xs h
  unfold dtParse at h
  split at h
  · have := hl.iso _ _ _ h
    cases k with
    | date => obtain ⟨y, m, d, rfl, h1⟩ := this; exact .date h1
    | time => obtain ⟨hh, mi, sec, us, tz, rfl, h1⟩ := this; exact .time h1
    | datetime => obtain ⟨y, m, d, hh, mi, sec, us, tz, rfl, h1, h2⟩ := this; exact .datetime h1 h2
  · exact hiter h

theorem tdSeconds_typed (hl : W.Lawful) {U : Ty → Val → Prop} {F : String → Ty → Prop} {v r : Val} (h : tdSeconds W v = .ok r) : HasType W U F .timedelta r := by
  unfold tdSeconds at h
  split at h
  · split at h
    · rename_i hv; cases h; exact .timedelta hv
    · cases h
  · cases h; rename_i b; cases b <;> exact .timedelta (by decide)
  · rename_i f
    cases hf : W.tdFloat f with
    | error e => rw [hf] at h; cases h
    | ok us => rw [hf] at h; cases h; exact .timedelta (hl.td f us hf)
  · cases h

theorem patCompile_typed {U : Ty → Val → Prop} {F : String → Ty → Prop} {a : Option Prim} {v r : Val} (h : patCompile W v = .ok r) : HasType W U F (.pattern a) r := by
  unfold patCompile at h
  split at h
  · cases h; exact .pattern
  · rename_i x; cases hr : W.reCompile (.str x) with
    | error e => rw [hr] at h; cases h
    | ok u => rw [hr] at h; cases h; exact .pattern
  · rename_i x; cases hr : W.reCompile (.bytes x) with
    | error e => rw [hr] at h; cases h
    | ok u => rw [hr] at h; cases h; exact .pattern
  · cases h

theorem enumCall_typed {U : Ty → Val → Prop} {F : String → Ty → Prop} {e : Nat} {v m : Val} (h : enumCall W e v = some m) : HasType W U F (.enum e) m := by
  obtain ⟨p, hp, rfl⟩ := enumCall_member h
  exact .enum (x := p.2) hp

theorem basic_typed (hl : W.Lawful) {U : Ty → Val → Prop} {F : String → Ty → Prop} {p : Prim} {v r : Val}
    (ho : ∀ rec : Rec, step W C rec .basicload v (.prim p) = M.lift (.ok r)) : HasType W U F (.prim p) r := by
  have hs := leaf_ok ho
  simp only [step, basicload] at hs
  split at hs
  · split at hs
    · cases hc : pyCall W (.prim p) v with
      | ok x => rw [hc] at hs; cases hs; exact .prim (hl.prim _ _ _ hc)
      | error e => rw [hc] at hs; dsimp only at hs; (repeat' split at hs) <;> cases hs
    · cases hs
  · rename_i ht; cases hs
    exact .prim (by simpa using ht)

theorem leaf_typed (hl : W.Lawful) {U : Ty → Val → Prop} {F : String → Ty → Prop} {h : Handler} {v : Val} {t : Ty} {r : Val} (hp : Picked W C t h)
    (hleaf : h.isLeaf = true) (ho : ∀ rec : Rec, step W C rec h v t = M.lift (.ok r)) : HasType W U F t r := by
  have hs := leaf_ok ho
  cases hp with
  | none =>
    simp only [step, noneload] at hs
    split at hs
    · cases hs; exact .prim rfl
    · cases hs
  | basic hb hn => exact basic_typed hl ho
  | lit =>
    simp only [step, literalload] at hs
    split at hs
    · rename_i hin; cases hs; exact .lit hin
    · cases hs
  | dt =>
    rename_i k
    simp only [step, datetimeload] at hs
    cases hx : dtParse W k v with
    | ok x => rw [hx] at hs; cases hs; exact dtParse_typed hl hx
    | error e => rw [hx] at hs; dsimp only at hs; (repeat' split at hs) <;> cases hs
  | pattern =>
    simp only [step, patternload] at hs
    cases hx : patCompile W v with
    | ok x => rw [hx] at hs; cases hs; exact patCompile_typed hx
    | error e => rw [hx] at hs; dsimp only at hs; (repeat' split at hs) <;> cases hs
  | timedelta =>
    simp only [step, timedeltaload] at hs
    cases hx : tdSeconds W v with
    | ok x => rw [hx] at hs; cases hs; exact tdSeconds_typed hl hx
    | error e => rw [hx] at hs; dsimp only at hs; (repeat' split at hs) <;> cases hs
  | strcons =>
    rename_i c _
    simp only [step, strconstructload] at hs
    cases hx : pyCall W (.strcons c) v with
    | ok x =>
      rw [hx] at hs; cases hs
      obtain ⟨x, rfl⟩ := hl.strcons _ _ _ hx
      exact .strcons
    | error e => rw [hx] at hs; dsimp only at hs; (repeat' split at hs) <;> cases hs
  | any => exact .any
  | coll => rename_i k t; cases k <;> cases hleaf
  | obj => rename_i c; revert hleaf; cases (W.cls c).kind <;> intro hleaf <;> cases hleaf
  | bare hb => rcases hb with rfl | rfl | rfl | rfl | rfl <;> cases hleaf
  | _ => cases hleaf

theorem Config.Default.mixed (hd : C.Default) : C.Mixed := by
  intro p hp; rw [hd] at hp; exact Or.inl hp

theorem picked_of_default {c : Cond} {h : Handler} {t : Ty} (hdef : (c, h) ∈ defaultHandlers) (ha : evalCond W C c t = .ok true) :
    Picked W C t h ∨ ∃ p, t = .prim p ∧ h = .basicload := by
  simp only [defaultHandlers, List.mem_cons, Prod.mk.injEq, List.not_mem_nil, or_false] at hdef
  rcases hdef with ⟨rfl, rfl⟩ | ⟨rfl, rfl⟩ | ⟨rfl, rfl⟩ | ⟨rfl, rfl⟩ | ⟨rfl, rfl⟩ | ⟨rfl, rfl⟩ | ⟨rfl, rfl⟩ | ⟨rfl, rfl⟩ | ⟨rfl, rfl⟩ |
    ⟨rfl, rfl⟩ | ⟨rfl, rfl⟩ | ⟨rfl, rfl⟩ | ⟨rfl, rfl⟩ | ⟨rfl, rfl⟩ | ⟨rfl, rfl⟩ | ⟨rfl, rfl⟩ | ⟨rfl, rfl⟩ | ⟨rfl, rfl⟩ | ⟨rfl, rfl⟩ |
    ⟨rfl, rfl⟩ | ⟨rfl, rfl⟩
  all_goals
    cases t <;> try exact absurd (show (Except.ok false : Except ExcClass Bool) = .ok true from ha) (by simp)
  all_goals first
    | exact Or.inr ⟨_, rfl, rfl⟩
    | exact Or.inl .union
    | exact Or.inl .enum
    | exact Or.inl .tuple
    | exact Or.inl .dict
    | exact Or.inl .fref
    | exact Or.inl .lit
    | exact Or.inl .dt
    | exact Or.inl .pattern
    | exact Or.inl .any
    | exact Or.inl .newtype
    | exact Or.inl .timedelta
    | exact Or.inl (.bare (by simp))
    | exact Or.inl (.strcons (by simpa [evalCond] using ha))
    | (rename_i k _; cases k <;> first | exact Or.inl .coll | cases ha)
    | (rename_i p; cases p <;> first | exact Or.inl .none | cases ha)
    | (rename_i c
       have hk := Picked.obj (W := W) (C := C) (c := c)
       simp only [evalCond, is_namedtuple, is_dataclass, is_attrs, is_typeddict, is_kind, Except.ok.injEq, beq_iff_eq] at ha
       rw [ha] at hk; exact Or.inl hk)

theorem pick_accepts {t : Ty} {h : Handler} (hp : pick W C t = .ok h) : ∃ c, (c, h) ∈ C.handlers ∧ Accepts W C c t := by
  unfold pick at hp
  cases hi : index W C t with
  | error e => rw [hi] at hp; cases hp
  | ok i =>
    rw [hi] at hp
    obtain ⟨q, hq, ha, _⟩ := (C01_index_first_match t i).1 hi
    dsimp only at hp
    rw [hq] at hp
    cases hp
    exact ⟨q.1, List.mem_of_getElem? hq, ha⟩

/-- The handler that serves a type is the default one, or a user's. -/
theorem picked_mixed (hm : C.Mixed) {t : Ty} {h : Handler} (hp : pick W C t = .ok h) :
    Picked W C t h ∨ (∃ p, t = .prim p ∧ h = .basicload) ∨ ∃ i, h = .custom i := by
  obtain ⟨c, hc, ha⟩ := pick_accepts hp
  rcases hm _ hc with hdef | hc
  · exact (picked_of_default hdef ha).imp_right Or.inl
  · exact Or.inr (Or.inr hc)

theorem ScriptSem.mayReturn {P : Handler → Val → Ty → Except Exc Val → Prop} {Q : Ty → Val → Prop} {p : Script} {r : Val}
    (h : ScriptSem W C P p (.ok r)) (hQ : ∀ {v t a y}, LoadSem W C P v t a (.ok y) → Q t y) : p.MayReturn Q r := by
  generalize ho : (Except.ok r : Except Exc Val) = o at h
  induction h with
  | ret => cases ho; exact .ret
  | raise => cases ho
  | call hl _ ih =>
    rename_i o o' _
    cases o with
    | ok y => exact .answer (hQ hl) (ih ho)
    | error e => exact .except (ih ho)

/-- Where the handler mix-up is harmless, the first pass over a dictionary uses the right handlers. -/
theorem fast_right {P : Handler → Val → Ty → Except Exc Val → Prop} {kt vt : Ty} (hsafe : C.isBasic vt = false ∨ pick W C kt = pick W C vt)
    {hk hv keyF : Handler} {valF : Option Handler} (hpk : pick W C kt = .ok hk) (hpv : pick W C vt = .ok hv)
    (hcase : keyF = hk ∧ valF = some hv ∨ keyF = hv ∧ valF = none) {kvs acc res : List (Val × Val)}
    (h : FastSem W C P kt vt keyF valF kvs acc res) : FastSem W C P kt vt hk (some hv) kvs acc res := by
  rcases hcase with ⟨rfl, rfl⟩ | ⟨rfl, rfl⟩
  · exact h
  · rcases hsafe with hb | he
    · obtain ⟨rfl, rfl⟩ := h.nil_of_not_basic hb; exact .nil
    · rw [hpk, hpv] at he; cases he; exact h.some_of_none

theorem DictSafe.pick_eq (hd : C.Default) {kt vt : Ty} (h : DictSafe C kt vt) : C.isBasic vt = false ∨ pick W C kt = pick W C vt := by
  rcases h with h | rfl | ⟨h1, h2, h3, h4⟩
  · exact Or.inl h
  · exact Or.inr rfl
  · refine Or.inr ?_
    cases kt <;> simp [Config.isBasic] at h1 h3
    cases vt <;> simp [Config.isBasic] at h2 h4
    rw [pick_basic hd h1 h3, pick_basic hd h2 h4]

theorem DictSafe.pick_usual {kt vt : Ty} (h : DictSafe C kt vt) (hk : C.Usual W kt) (hv : C.Usual W vt) :
    C.isBasic vt = false ∨ pick W C kt = pick W C vt := by
  rcases h with h | rfl | ⟨h1, h2, h3, h4⟩
  · exact Or.inl h
  · exact Or.inr rfl
  · refine Or.inr ?_
    cases kt <;> simp [Config.isBasic] at h1 h3
    cases vt <;> simp [Config.isBasic] at h2 h4
    rw [hk.basic h1 h3, hv.basic h2 h4]

/-- What one step of the loader guarantees. -/
theorem sound_step (hm : C.Mixed) (hl : W.Lawful) {G : Ty → Prop} {U : Ty → Val → Prop} {F F' : String → Ty → Prop} (hF : ∀ n u, F n u → F' n u)
    (hu : ∀ i x u r, pick W C u = .ok (.custom i) → (W.customLoad i x u).MayReturn (HasType W U F') r → HasType W U F' u r)
    (hsafe : ∀ k v, G (.dict k v) → C.isBasic v = false ∨ pick W C k = pick W C v) (h : Handler) (v : Val) (t : Ty) (o : Except Exc Val) (hg : G t)
    (hs : StepSem W C F (fun h _ t o => pick W C t = .ok h → ∀ r, o = .ok r → HasType W U F' t r) h v t o)
    (hp : pick W C t = .ok h) (r : Val) (ho : o = .ok r) : HasType W U F' t r := by
  have hload : ∀ {x u a o}, LoadSem W C (fun h _ t o => pick W C t = .ok h → ∀ r, o = .ok r → HasType W U F' t r) x u a o →
      ∀ r, o = .ok r → HasType W U F' u r := by
    intro x u a o h r ho
    cases h with
    | noHandler => cases ho
    | ok hp h => exact h hp r ho
    | err => cases ho
  have hpass : ∀ {t x}, BasicInstance C t x → ElemType W U F' t x := by
    rintro t x ⟨p, rfl, _, h⟩; exact .subclass h
  cases hs with
  | leaf hleaf h =>
    subst ho
    rcases picked_mixed hm hp with hpk | ⟨p, rfl, rfl⟩ | ⟨i, rfl⟩
    · exact leaf_typed hl hpk hleaf h
    · exact basic_typed hl h
    · cases hleaf
  | custom hi hsc => subst ho; exact hu _ _ _ _ hp (hsc.mayReturn (fun h => hload h _ rfl))
  | mismatch => cases ho
  | iterDict => cases ho
  | iterLookup => cases ho
  | iterNot => cases ho
  | iterErr => cases ho
  | @iter _ _ k k' et _ _ _ hk hnd hx hp' hit =>
    cases ho
    have : k' = k := by
      rcases picked_mixed hm hp with hpk | ⟨p, h, rfl⟩ | ⟨i, rfl⟩
      · exact picked_coll hpk hk
      · cases h
      · cases hk
    subst this
    have := hit.elems (Q := ElemType W U F' et) ?_ ⟨by simp, fun _ => by simp [SetLike]⟩ _ rfl
    · exact .coll this.1 this.2
    · rintro x y (⟨hpt, rfl⟩ | hP)
      · rcases hpt with ⟨p, rfl, _, h⟩ | ⟨ts, rfl, hb, h⟩
        · exact .subclass h
        · refine .typed (.union h ?_)
          have := hb _ h
          generalize ht : typeOf y = u at *
          cases u <;> simp [Config.isBasic] at this
          exact .prim ht
      · exact .typed (hP hp' y rfl)
  | tupDict => cases ho
  | tupLen => cases ho
  | tupSize => cases ho
  | tupErr => cases ho
  | tup hnd hx hlen _ htup =>
    cases ho
    have := htup.elems (Q := HasType W U F') ?_ hlen _ rfl
    · exact .tuple this.1 this.2
    · rintro h x u y _ hp' (⟨hb, ht, rfl⟩ | hP)
      · cases u <;> simp [Config.isBasic] at hb
        exact .prim ht
      · exact hP hp' y rfl
  | dictLookup => cases ho
  | dictNot => cases ho
  | @dictFast _ kt vt kvs hk hv keyF valF res hdata hpk' hpv hcase hf =>
    cases ho
    have hf' := fast_right (hsafe _ _ hg) hpk' hpv hcase hf
    have := hf'.acc (Qk := ElemType W U F' kt) (Qv := ElemType W U F' vt) ?_ ?_ DictAcc.nil
    · exact .dict this.keys this.vals this.set
    · rintro x y (⟨hb, rfl⟩ | hP)
      · exact hpass hb
      · exact .typed (hP hpk' y rfl)
    · rintro x y (⟨hb, rfl⟩ | hP)
      · exact hpass hb
      · exact .typed (hP hpv y rfl)
  | @dictSlow _ kt vt kvs hk hv res hdata hpk' hpv hf =>
    cases ho
    have := hf.acc (Qk := ElemType W U F' kt) (Qv := ElemType W U F' vt) (fun h x y hp' hP => .typed (hP hp' y rfl)) (fun h x y hp' hP => .typed (hP hp' y rfl))
      DictAcc.nil _ rfl
    exact .dict this.keys this.vals this.set
  | dictErr => cases ho
  | obj hob =>
    rename_i c
    subst ho
    cases hob with
    | @ok info kvs kvs' params _ hi hm hnec _ hfs hcon =>
      obtain ⟨h1, h2, _, h4⟩ := hfs.entries (Q := FieldValue W U F' c)
        (by
          intro m ft h x y hh hp' hP
          obtain ⟨f, hf, rfl, hft⟩ := hi.hints m ft hh
          exact .typed hf hft (hP hp' y rfl)) (by simp) (by simp) _ rfl
      by_cases hk : (W.cls c).kind = .typeddict
      · unfold construct at hcon
        dsimp only at hcon; rw [hk] at hcon; dsimp only at hcon
        cases hcon
        refine .typeddict hk h1 ?_ h2
        · intro f hf h5 h6
          have h7 : f.name ∈ info.necessary := hi.nec f hf (by rw [hk]; exact ⟨h5, h6⟩) (by rw [hk]; simp)
          exact h4 _ (by rw [hi.fields]; exact List.mem_map.2 ⟨f, hf, rfl⟩) (hnec _ h7)
      · obtain ⟨fs, hfill, hb⟩ := construct_built hk hcon
        have hall : ∀ f ∈ (W.cls c).fields, ∀ l, fillField params f = .ok l →
            (∀ p ∈ l, p.1 = f.name ∧ (f.default = some p.2 ∨ (f.name, p.2) ∈ params)) ∧
            (f.init = true ∨ f.default ≠ none → f.name ∈ l.map (·.1)) := by
          intro f hf l hl'
          unfold fillField at hl'
          cases ha : aget params f.name with
          | some y =>
            rw [ha] at hl'; cases hl'
            exact ⟨by simp [aget_mem ha], by simp⟩
          | none =>
            rw [ha] at hl'; dsimp only at hl'
            cases hdf : f.default with
            | some d => rw [hdf] at hl'; cases hl'; simp
            | none =>
              rw [hdf] at hl'; dsimp only at hl'
              split at hl'
              · cases hl'
              · rename_i hini; cases hl'; simp [hini]
        obtain ⟨ls, hz, rfl⟩ := fillFields_zip hall hfill
        refine .obj hk ?_ ?_ hb
        · intro p hp'
          obtain ⟨l, hl', hpl⟩ := List.mem_flatten.1 hp'
          obtain ⟨f, hf, hfl⟩ := hz.mem_right hl'
          obtain ⟨h5, h6⟩ := hfl.1 p hpl
          rw [h5]
          rcases h6 with h6 | h6
          · exact .default hk hf h6
          · exact h1 _ h6
        · intro f hf hreq
          obtain ⟨l, hl', hfl⟩ := hz.mem_left hf
          have := hfl.2 hreq
          obtain ⟨q, hq, h5⟩ := List.mem_map.1 this
          exact List.mem_map.2 ⟨q, List.mem_flatten.2 ⟨l, hl', hq⟩, h5⟩
  | unionBasic hb =>
    cases ho
    obtain ⟨hb1, hb2⟩ := hb
    refine .union hb2 ?_
    generalize ht : typeOf v = u at *
    cases u <;> simp [Config.isBasic] at hb1
    exact .prim ht
  | unionTag => cases ho
  | unionCrash => cases ho
  | unionOne hne hord htry =>
    cases ho
    obtain ⟨u, hu, hcall⟩ := (htry.winner _ _ _ rfl).resolve_left (fun h => by cases h.1)
    refine .union (hord.perm.mem_iff.1 hu) ?_
    cases hcall with
    | call hp' hP => exact hP hp' _ rfl
  | unionNone => cases ho
  | unionMany => cases ho
  | enumMember hm => cases ho; exact enumCall_typed hm
  | enumHints hn hh =>
    obtain ⟨x, hx⟩ := hh.member r ho
    exact enumCall_typed hx
  | frefDisabled => cases ho
  | frefUnknown => cases ho
  | fref hf _ hl' => exact .fref (hF _ _ hf) (hload hl' r ho)
  | newtype hl' => exact .newtype (hload hl' r ho)

/-! ## C03 -/

/-- **C03** (partial). With handlers added by the user anywhere in the list, and default handlers removed or moved, what `load(v, t)` returns
is an instance of `t`, for every value, type, configuration and history of the loader: if `U` describes the values that the user's handlers add to
a type and the handlers keep that promise whenever the loader they call keeps it, then so does the loader.
Missing: types containing a `Dict[K, V]`, with `V` a basic type, for which keys and values have different handlers. -/
theorem C03_user_partial (hm : C.Mixed) (hl : W.Lawful) {s s' : LState} (hs : Reachable W C s) {v : Val} {t : Ty} {r : Val} {U : Ty → Val → Prop}
    (hu : ∀ i x u y, pick W C u = .ok (.custom i) → (W.customLoad i x u).MayReturn (HasType W U (Known W s)) y → HasType W U (Known W s) u y)
    (hsafe : ∀ kt vt, Meets W C s t (.dict kt vt) → C.isBasic vt = false ∨ pick W C kt = pick W C vt)
    (h : Loads W C s v t r s') : HasType W U (Known W s) t r := by
  obtain ⟨hh, hp, hP⟩ := h.sem (Meets.closed s t)
    (fun h v t o hg hs hp r ho => sound_step (F' := Known W s) hm hl (fun _ _ h => h.2) hu hsafe h v t o hg hs hp r ho)
    (hs.good_meets t) .self
  exact hP hp r rfl

/-- **C03** (partial). What `load(v, t)` returns is an instance of `t`, for every value, type, configuration with the default handlers
and history of the loader.
Missing: types containing a `Dict[K, V]` for which the handler mix-up of `_dictload` matters (see `DictSafe`); for these the claim is
false, see `C03_mixup_counterexample`. -/
theorem C03_sound_partial (hd : C.Default) (hl : W.Lawful) {s s' : LState} (hs : Reachable W C s) {v : Val} {t : Ty} {r : Val}
    (hsafe : ∀ kt vt, Meets W C s t (.dict kt vt) → DictSafe C kt vt) (h : Loads W C s v t r s') : HasType W NoUser (Known W s) t r :=
  C03_user_partial hd.mixed hl hs (fun i _ _ _ hp _ => absurd (pick_installed hp) (not_installed hd i)) (fun k v h => (hsafe k v h).pick_eq hd) h

/-- A type without dictionaries needs no condition. -/
theorem C03_sound_no_dict (hd : C.Default) (hl : W.Lawful) {s s' : LState} (hs : Reachable W C s) {v : Val} {t : Ty} {r : Val}
    (hnd : ∀ kt vt, ¬ Meets W C s t (.dict kt vt)) (h : Loads W C s v t r s') : HasType W NoUser (Known W s) t r :=
  C03_sound_partial hd hl hs (fun kt vt hm => absurd hm (hnd kt vt)) h

/-- The sample world satisfies the assumptions. -/
theorem Sample.lawful : Sample.W.Lawful where
  prim p v r h := by
    have hc : Sample.call (.prim p) v = .ok r := h
    unfold Sample.call at hc
    split at hc <;> cases hc
    all_goals rename_i h1 h2
    all_goals (first | cases h2 | cases h1)
    all_goals rfl
  strcons c v r h := by
    have hc : Sample.call (.strcons c) v = .ok r := h
    unfold Sample.call at hc
    split at hc <;> cases hc
    all_goals rename_i h1 h2
    all_goals (first | cases h2 | cases h1)
    exact ⟨_, rfl⟩
  iso k x v h := by cases h
  td f us h := by
    cases f with
    | nan => cases h
    | inf => cases h
    | fin k =>
      change (if _ then _ else _) = _ at h
      split at h
      · rename_i hv; cases h; exact hv
      · cases h

/-- The hypotheses hold for `Dict[str, List[P]]`, with a dataclass that has converted, renamed and defaulted fields. -/
example : Sample.C.Default ∧ Reachable Sample.W Sample.C (fresh []) ∧
    (∀ kt vt, Meets Sample.W Sample.C (fresh []) (.dict (.prim .str) (.coll .list (.obj 0))) (.dict kt vt) → DictSafe Sample.C kt vt) ∧
    ∃ s', Loads Sample.W Sample.C (fresh [])
      (.dict [(.str "k", .tuple [.dict [(.str "x", .str "5"), (.str "zed", .str "q")]])])
      (.dict (.prim .str) (.coll .list (.obj 0)))
      (.dict [(.str "k", .list [.inst 0 [("x", .int 5), ("z", .str "q"), ("y", .int 5)]])]) s' := by
  refine ⟨rfl, .new _ _, ?_, _, 8, rfl⟩
  have key : ∀ u, Meets Sample.W Sample.C (fresh []) (.dict (.prim .str) (.coll .list (.obj 0))) u →
      u = .dict (.prim .str) (.coll .list (.obj 0)) ∨ u = .coll .list (.obj 0) ∨ u = .obj 0 ∨ u = .prim .str ∨ u = .prim .int := by
    intro u h
    induction h with
    | self => simp
    | known h => obtain ⟨fr, h1, h2⟩ := h; cases h1; cases h2
    | coll _ ih => simp at ih; simp [ih]
    | tuple _ _ ih => simp at ih
    | dictKey _ ih => simp at ih; simp [ih]
    | dictVal _ ih => simp at ih; simp [ih]
    | union _ _ ih => simp at ih
    | newtype _ ih => simp at ih
    | enum _ _ ih => simp at ih
    | custom hi _ _ => exact absurd hi (not_installed (C := Sample.C) rfl _)
    | field _ hf ht ih =>
      simp at ih; subst ih
      have hf' : _ ∈ Sample.clsP.fields := hf
      simp only [Sample.clsP, List.mem_cons, List.not_mem_nil, or_false] at hf'
      cases ht with
      | declared => rcases hf' with rfl | rfl | rfl <;> simp
      | converter _ h => cases h
      | untyped _ h => cases h
      | manyHints _ h => cases h
  intro kt vt h
  rcases key _ h with h | h | h | h | h <;> cases h
  exact Or.inl rfl

theorem Sample.lawfulB : Sample.WB.Lawful := ⟨Sample.lawful.prim, Sample.lawful.strcons, Sample.lawful.iso, Sample.lawful.td⟩

/-- What the user's handler of the sample promises: a `Path` is an integer, a `Tree` a nest of lists. -/
inductive Sample.Promise : Ty → Val → Prop
  | path {v} : typeOf v = .prim .int → Sample.Promise (.strcons "Path") v
  | leaf : Sample.Promise (.strcons "Tree") (.int 0)
  | obj {x} : Sample.Promise (.strcons "Tree") (.strobj "Tree" x)
  | node {v} : Sample.Promise (.strcons "Tree") v → Sample.Promise (.strcons "Tree") (.list [v])

theorem Sample.mixedB : Sample.CB.Mixed := by
  intro p hp
  rcases List.mem_cons.1 hp with rfl | hp
  · exact Or.inr ⟨1, rfl⟩
  · exact Or.inl hp

/-- The hypotheses of `C03_user_partial`, with a handler that calls the loader back, for `List[Tree]`. -/
example : Sample.CB.Mixed ∧ Sample.WB.Lawful ∧ Reachable Sample.WB Sample.CB (fresh []) ∧
    (∀ i x u y, pick Sample.WB Sample.CB u = .ok (.custom i) →
      (Sample.WB.customLoad i x u).MayReturn (HasType Sample.WB Sample.Promise (Known Sample.WB (fresh []))) y →
      HasType Sample.WB Sample.Promise (Known Sample.WB (fresh [])) u y) ∧
    (∀ kt vt, Meets Sample.WB Sample.CB (fresh []) (.coll .list (.strcons "Tree")) (.dict kt vt) →
      Sample.CB.isBasic vt = false ∨ pick Sample.WB Sample.CB kt = pick Sample.WB Sample.CB vt) ∧
    ∃ s', Loads Sample.WB Sample.CB (fresh []) (.list [.list [.list []], .int 3]) (.coll .list (.strcons "Tree"))
      (.list [.list [.int 0], .int 0]) s' := by
  refine ⟨Sample.mixedB, Sample.lawfulB, .new _ _, ?_, ?_, _, 9, rfl⟩
  · intro i x u y hp hr
    change (Sample.callback x u).MayReturn _ y at hr
    obtain ⟨c, hc, ha⟩ := pick_accepts hp
    have hc : (c, Handler.custom i) = (.custom 1, .custom 1) ∨ (c, Handler.custom i) ∈ defaultHandlers := List.mem_cons.1 hc
    rcases hc with hc | hc
    · cases hc
      have ha : (Except.ok (u == .strcons "Path" || u == .strcons "Tree") : Except ExcClass Bool) = .ok true := ha
      simp only [Except.ok.injEq, Bool.or_eq_true, ty_beq, decide_eq_true_eq] at ha
      rcases ha with rfl | rfl
      · unfold Sample.callback at hr; rw [if_pos rfl] at hr
        cases hr with
        | answer hq hr =>
          cases hr
          cases hq with
          | user h => cases h
          | prim h => exact .user (.path h)
        | except hr => cases hr
      · unfold Sample.callback at hr; rw [if_neg (by decide), if_pos rfl] at hr
        split at hr
        · cases hr with
          | answer hq hr =>
            cases hr
            cases hq with
            | user h => exact .user (.node h)
            | strcons => exact .user (.node .obj)
          | except hr => cases hr
        · cases hr; exact .user .leaf
    · simp [defaultHandlers] at hc
  · have key : ∀ u, Meets Sample.WB Sample.CB (fresh []) (.coll .list (.strcons "Tree")) u →
        u = .coll .list (.strcons "Tree") ∨ u = .strcons "Tree" := by
      intro u h
      induction h with
      | self => simp
      | known h => obtain ⟨fr, h1, h2⟩ := h; cases h1; cases h2
      | coll _ ih => simp at ih; simp [ih]
      | custom hi _ ha ih =>
        have ha : (Sample.callback _ _).Asks _ _ := ha
        rcases ih with rfl | rfl
        · unfold Sample.callback at ha; rw [if_neg (by decide), if_neg (by decide)] at ha
          cases ha
        · unfold Sample.callback at ha; rw [if_neg (by decide), if_pos rfl] at ha
          split at ha
          · cases ha with
            | here => exact Or.inr rfl
            | later h => rename_i o; cases o <;> cases h
          · cases ha
      | _ => rename_i ih; simp at ih
    intro kt vt h
    rcases key _ h with h | h <;> cases h

/-- The mix-up of `_dictload`: a fresh loader returns for `Dict[U, int]`, with `U` a NewType of int, a dictionary whose key is no `U`. -/
theorem C03_mixup_counterexample : ∃ r s', Loads Sample.W Sample.C (fresh []) (.dict [(.str "x", .int 1)]) (.dict Sample.U (.prim .int)) r s' ∧
    ¬ HasType Sample.W NoUser (Known Sample.W (fresh [])) (.dict Sample.U (.prim .int)) r := by
  obtain ⟨s', h⟩ := C17_mixup_counterexample.1
  refine ⟨_, s', h, ?_⟩
  intro ht
  cases ht with
  | user h => cases h
  | dict hk _ _ =>
    have := hk (.str "x", .int 1) (by simp)
    cases this with
    | typed this => cases this with
      | user h => cases h
      | newtype h => cases h with
        | user h => cases h
        | prim h => cases h

/-- Instances of subclasses (`ElemType.subclass`): `True` is left alone in a list of ints, but not in a field of type int. -/
theorem C03_subclass_counterexample : (∃ s', Loads Sample.W Sample.C (fresh []) (.list [.bool true]) (.coll .list (.prim .int)) (.list [.bool true]) s') ∧
    ¬ HasType Sample.W NoUser (Known Sample.W (fresh [])) (.prim .int) (.bool true) ∧
    ∃ s', Loads Sample.W Sample.C (fresh []) (.bool true) (.prim .int) (.int 1) s' := by
  refine ⟨⟨_, 9, rfl⟩, ?_, ⟨_, 9, rfl⟩⟩
  intro h
  cases h with
  | user h => cases h
  | prim h => cases h

end TL
