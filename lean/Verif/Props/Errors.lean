import Verif.Props.Soundness
import Verif.Lemmas.SemErr
/-!
# What can escape from `load` (C04, C05)
-/

namespace TL

variable {W : World} {C : Config} {G : Ty → Prop} {F : String → Ty → Prop}

/-! ## C04 -/

/-- **C04**. Whatever the handlers do (user-supplied handlers included), an exception that leaves `load` is a TypedloadException or
the AssertionError raised in their place.  No condition raises, or `raiseconditionerrors` is off. -/
theorem C04_escape (hc : CalmConditions W C) {s s' : LState} (hs : Reachable W C s) {v : Val} {t : Ty} {e : Exc}
    (h : Raises W C s v t e s') : e.isTL = true ∨ e.cls = .assertion := by
  rcases (raises_iff hs.coh).1 h with ⟨n, hh, e', _, _, rfl⟩ | ⟨c, hp, rfl, _⟩
  · unfold loadExc
    split
    · rename_i h; exact Or.inl (by simpa using h)
    · exact Or.inr rfl
  · rw [pick_error_value hc hp]; exact Or.inl rfl

/-- A handler of the user raising ValueError: `load` raises AssertionError. -/
example : ∃ e s', Raises Sample.W { Sample.C with handlers := (.custom 1, .custom 0) :: defaultHandlers, raiseconditionerrors := false }
    (fresh []) (.int 1) (.prim .int) e s' ∧ e.cls = .assertion := ⟨_, _, ⟨1, rfl⟩, rfl⟩

/-- With `raiseconditionerrors` a raising condition of the user escapes as it is, unless it raised ValueError. -/
theorem C04_condition {s s' : LState} (hs : Reachable W C s) {v : Val} {t : Ty} {e : Exc} {x : ExcClass} (hp : index W C t = .error x)
    (h : Raises W C s v t e s') : e = if x.isValue then mkExc .tlType (.noHandler t) v t else .plain x := by
  have hp' : pick W C t = .error x := by unfold pick; rw [hp]
  rcases (raises_iff hs.coh).1 h with ⟨n, hh, e', h1, _, rfl⟩ | ⟨c, h1, rfl, _⟩
  · rw [hp'] at h1; cases h1
  · rw [hp'] at h1; cases h1; rfl

/-! ## C05 -/

/-- Types whose loaded values may be unhashable. -/
inductive Unhashy (W : World) (C : Config) (F : String → Ty → Prop) : Ty → Prop
  | any : Unhashy W C F .any
  | lit {vs} : Unhashy W C F (.lit vs)
  | list {t} : Unhashy W C F (.coll .list t)
  | set {t} : Unhashy W C F (.coll .set t)
  | elem {t} : Unhashy W C F t → Unhashy W C F (.coll .tuple t)
  | tuple {ts t} : t ∈ ts → Unhashy W C F t → Unhashy W C F (.tuple ts)
  | dict {kt vt} : Unhashy W C F (.dict kt vt)
  | union {ts t} : t ∈ ts → Unhashy W C F t → Unhashy W C F (.union ts)
  | newtype {n t} : Unhashy W C F t → Unhashy W C F (.newtype n t)
  | fref {n t} : F n t → Unhashy W C F t → Unhashy W C F (.fref n)
  | typeddict {c} : (W.cls c).kind = .typeddict → Unhashy W C F (.obj c)
  /-- a class without `__hash__` -/
  | inst {c} : (W.cls c).kind ≠ .namedtuple → (W.cls c).hashable = false → Unhashy W C F (.obj c)
  /-- a field whose values may be unhashable: the hash of an instance is that of its fields -/
  | field {c f t} : f ∈ (W.cls c).fields → FieldTy (W.cls c).kind f t → Unhashy W C F t → Unhashy W C F (.obj c)
  | default {c f x} : f ∈ (W.cls c).fields → f.default = some x → W.hash x = false → Unhashy W C F (.obj c)
  /-- a constructor that stores something unhashable it was not given -/
  | init {c fs fs' p} : W.initHook c fs = .ok fs' → p ∈ fs' → p ∉ fs → W.hash p.2 = false → Unhashy W C F (.obj c)
  /-- a handler of the user that can return something unhashable -/
  | user {t i v r} : pick W C t = .ok (.custom i) → (W.customLoad i v t).MayReturn (fun _ _ => True) r → W.hash r = false → Unhashy W C F t

/-- Class of exceptions that are neither a TypeError nor a ValueError nor a TypedloadException. -/
def Odd (x : ExcClass) : Prop := x.isType = false ∧ x.isValue = false ∧ x.isTL = false

/-- The known reasons for which a load can fail with something else than a TypedloadException. -/
inductive Culprit (W : World) (C : Config) (F : String → Ty → Prop) : Val → Ty → Prop
  /-- `Tuple[a, b]` and data that cannot be iterated -/
  | tuple {v ts} : pyIter v = none → Culprit W C F v (.tuple ts)
  /-- an unhashable value in the field that discriminates between the members of a union -/
  | tag {v ts} : UnhashableTag W v ts → Culprit W C F v (.union ts)
  /-- a dictionary key loaded to something unhashable -/
  | keyHash {v kt vt kvs} : DictData C v kvs → kvs ≠ [] → Unhashy W C F kt → Culprit W C F v (.dict kt vt)
  /-- with failonextra, a key that is not a string given to a class -/
  | extraKey {v c kvs p} : C.failonextra = true → DictData C v kvs → p ∈ kvs → strKey p.1 = none → Culprit W C F v (.obj c)
  /-- the constructor of a class raising something else than TypeError and ValueError -/
  | constructor {v c fs x} : W.initHook c fs = .error x → Odd x → Culprit W C F v (.obj c)
  /-- an attrs converter with only a return annotation -/
  | converter {v c f cv} : (W.cls c).kind = .attrs → f ∈ (W.cls c).fields → f.conv = some cv → cv.params = [] → cv.ret = true →
      Culprit W C F v (.obj c)
  /-- dates: anything but ValueError and TypeError (OverflowError) -/
  | date {v k x} : dtParse W k v = .error x → Odd x → Culprit W C F v (.dt k)
  /-- timedelta: anything but TypeError (OverflowError, ValueError for nan) -/
  | timedelta {v x} : tdSeconds W v = .error x → x.isType = false → Culprit W C F v .timedelta
  /-- patterns: anything but TypeError and re.error -/
  | pattern {v a x} : patCompile W v = .error x → x.isType = false → x ≠ .reError → Culprit W C F v (.pattern a)
  /-- typing.List without parameters -/
  | bare {v g} : Culprit W C F v (.bare g)
  /-- a handler of the user that raises something else by itself -/
  | user {v t i e} : pick W C t = .ok (.custom i) → (W.customLoad i v t).MayRaise e → e.isTL = false → Culprit W C F v t
  /-- a handler of the user that calls `load` with such a type and data -/
  | asked {v t i x u} : pick W C t = .ok (.custom i) → (W.customLoad i v t).Asks x u → Culprit W C F x u → Culprit W C F v t
  | member {v ts u} : u ∈ ts → Culprit W C F v u → Culprit W C F v (.union ts)
  | newtype {v n u} : Culprit W C F v u → Culprit W C F v (.newtype n u)
  | fref {v n u} : F n u → Culprit W C F v u → Culprit W C F v (.fref n)
  | key {v kt vt kvs p} : DictData C v kvs → p ∈ kvs → Culprit W C F p.1 kt → Culprit W C F v (.dict kt vt)
  | value {v kt vt kvs p} : DictData C v kvs → p ∈ kvs → Culprit W C F p.2 vt → Culprit W C F v (.dict kt vt)
  | field {v c kvs p f u} : DictData C v kvs → p ∈ kvs → f ∈ (W.cls c).fields → FieldTy (W.cls c).kind f u → Culprit W C F p.2 u →
      Culprit W C F v (.obj c)

theorem dset_mem2 {acc : List (Val × Val)} {k x : Val} {p : Val × Val} (h : p ∈ dset acc k x) :
    p ∈ acc ∨ (p.2 = x ∧ (p.1 = k ∨ pyEq p.1 k = true)) := by
  induction acc with
  | nil => simp [dset] at h; subst h; exact Or.inr ⟨rfl, Or.inl rfl⟩
  | cons q acc ih =>
    obtain ⟨k', x'⟩ := q
    unfold dset at h
    split at h
    · rename_i he
      rcases List.mem_cons.1 h with h | h
      · subst h; exact Or.inr ⟨rfl, Or.inr he⟩
      · exact Or.inl (by simp [h])
    · rcases List.mem_cons.1 h with h | h
      · subst h; exact Or.inl (by simp)
      · rcases ih h with h | h
        · exact Or.inl (by simp [h])
        · exact Or.inr h

/-- Renaming keeps the values, and non-string keys. -/
theorem mangleLoop_mem (tr : List (String × String)) (foe : Bool) (kvs : List (Val × Val)) :
    ∀ acc r, mangleLoop tr foe kvs acc = .ok r → ∀ p ∈ r, p ∈ acc ∨ ∃ k, (k, p.2) ∈ kvs ∧
      ((k = p.1 ∨ pyEq p.1 k = true) ∨ ∃ m n, k = .str m ∧ aget tr m = some n ∧ (p.1 = .str n ∨ pyEq p.1 (.str n) = true)) := by
  induction kvs with
  | nil => intro acc r h p hp; cases h; exact Or.inl hp
  | cons q kvs ih =>
    obtain ⟨k, x⟩ := q
    intro acc r h p hp
    have lift : ∀ {k' : Val}, (p ∈ dset acc k' x ∨ ∃ k, (k, p.2) ∈ kvs ∧
        ((k = p.1 ∨ pyEq p.1 k = true) ∨ ∃ m n, k = .str m ∧ aget tr m = some n ∧ (p.1 = .str n ∨ pyEq p.1 (.str n) = true))) →
        (k' = k ∨ ∃ m n, k = .str m ∧ aget tr m = some n ∧ k' = .str n) →
        p ∈ acc ∨ ∃ k', (k', p.2) ∈ (k, x) :: kvs ∧
      ((k' = p.1 ∨ pyEq p.1 k' = true) ∨ ∃ m n, k' = .str m ∧ aget tr m = some n ∧ (p.1 = .str n ∨ pyEq p.1 (.str n) = true)) := by
      rintro k' (h | ⟨k2, h1, h2⟩) hk'
      · rcases dset_mem2 h with h | ⟨h1, h2⟩
        · exact Or.inl h
        · refine Or.inr ⟨k, by rw [h1]; simp, ?_⟩
          rcases hk' with rfl | ⟨m, n, rfl, h3, rfl⟩
          · rcases h2 with h2 | h2
            · exact Or.inl (Or.inl h2.symm)
            · exact Or.inl (Or.inr h2)
          · exact Or.inr ⟨m, n, rfl, h3, h2⟩
      · exact Or.inr ⟨k2, by simp [h1], h2⟩
    cases hsk : strKey k with
    | none =>
      rw [mangleLoop_other _ _ hsk] at h
      exact lift (ih _ _ h p hp) (Or.inl rfl)
    | some n =>
      have : k = .str n := by cases k <;> simp [strKey] at hsk; rw [hsk]
      subst this
      rw [mangleLoop_str] at h
      cases hf : keyFate tr n with
      | kept => rw [hf] at h; exact lift (ih _ _ h p hp) (Or.inl rfl)
      | dropped =>
        rw [hf] at h; dsimp only at h
        split at h
        · cases h
        · rcases ih _ _ h p hp with h | ⟨k2, h1, h2⟩
          · exact Or.inl h
          · exact Or.inr ⟨k2, by simp [h1], h2⟩
      | renamedTo n' =>
        rw [hf] at h; dsimp only at h
        have h4 : aget tr n = some n' := by
          unfold keyFate at hf
          split at hf
          · cases hf; assumption
          · split at hf <;> cases hf
        exact lift (ih _ _ h p hp) (Or.inr ⟨n, n', rfl, h4, rfl⟩)

theorem Mangled.value_mem {tr : List (String × String)} {v : Val} {kvs kvs' : List (Val × Val)} (hm : Mangled C tr v kvs kvs')
    {p : Val × Val} (hp : p ∈ kvs') : ∃ k, (k, p.2) ∈ kvs := by
  rcases hm.2 with ⟨_, rfl⟩ | ⟨_, _, h2⟩
  · exact ⟨p.1, hp⟩
  · rcases mangleLoop_mem _ _ _ _ _ h2 p hp with h | ⟨k, h, _⟩
    · cases h
    · exact ⟨k, h⟩

/-- A string key of the renamed data comes from that key, or from its external name. -/
theorem Mangled.str_mem {tr : List (String × String)} {v : Val} {kvs kvs' : List (Val × Val)} (hm : Mangled C tr v kvs kvs')
    {n : String} {x : Val} (hp : (.str n, x) ∈ kvs') : ∃ m, (.str m, x) ∈ kvs ∧ (m = n ∨ aget tr m = some n) := by
  rcases hm.2 with ⟨_, rfl⟩ | ⟨_, _, h2⟩
  · exact ⟨n, hp, Or.inl rfl⟩
  · rcases mangleLoop_mem _ _ _ _ _ h2 _ hp with h | ⟨k, h, h3⟩
    · cases h
    · rcases h3 with (h3 | h3) | ⟨m, n', rfl, h4, h5⟩
      · subst h3; exact ⟨n, h, Or.inl rfl⟩
      · cases k <;> simp [pyEq] at h3
        subst h3; exact ⟨n, h, Or.inl rfl⟩
      · refine ⟨m, h, Or.inr ?_⟩
        rcases h5 with h5 | h5
        · cases h5; exact h4
        · simp [pyEq] at h5; rw [h5]; exact h4

theorem Mangled.nonstr_mem {tr : List (String × String)} {v : Val} {kvs kvs' : List (Val × Val)} (hm : Mangled C tr v kvs kvs')
    {p : Val × Val} (hp : p ∈ kvs') (hk : strKey p.1 = none) : ∃ q ∈ kvs, strKey q.1 = none := by
  have key : ∀ n, pyEq p.1 (.str n) = false := by
    intro n
    cases hv : p.1 <;> rw [hv] at hk <;> simp [strKey] at hk <;> simp [pyEq, numKey] 
  rcases hm.2 with ⟨_, rfl⟩ | ⟨_, _, h2⟩
  · exact ⟨p, hp, hk⟩
  · rcases mangleLoop_mem _ _ _ _ _ h2 _ hp with h | ⟨k, h, h3⟩
    · cases h
    · rcases h3 with (h3 | h3) | ⟨m, n', rfl, h4, h5⟩
      · exact ⟨_, h, by rw [h3]; exact hk⟩
      · refine ⟨_, h, ?_⟩
        cases k with
        | str n => rw [key] at h3; cases h3
        | _ => rfl
      · rcases h5 with h5 | h5
        · rw [h5] at hk; cases hk
        · rw [key] at h5; cases h5


theorem hashableL_false {hc : Nat → Bool} {xs : List Val} (h : hashableL hc xs = false) : ∃ x ∈ xs, hashable hc x = false := by
  induction xs with
  | nil => simp [hashableL] at h
  | cons x xs ih =>
    unfold hashableL at h
    cases hx : hashable hc x with
    | false => exact ⟨x, by simp, hx⟩
    | true =>
      rw [hx] at h
      obtain ⟨y, hy, h⟩ := ih (by simpa using h)
      exact ⟨y, by simp [hy], h⟩

theorem isInst_hash {p : Prim} {x : Val} (h : isInst p x = true) : W.hash x = true := by
  cases x <;> first | rfl | cases h

/-- A value of a type that is not a container of others is hashable, if the type does not say otherwise. -/
theorem leaf_unhashy {h : Handler} {t : Ty} (hp : Picked W C t h) (hl : h.isLeaf = true) {r : Val} (ht : HasType W NoUser F t r)
    (hh : W.hash r = false) : Unhashy W C F t := by
  cases hp with
  | none => cases ht with
    | user h => cases h
    | prim h => rw [isInst_hash (typeOf_isInst h)] at hh; cases hh
  | basic => cases ht with
    | user h => cases h
    | prim h => rw [isInst_hash (typeOf_isInst h)] at hh; cases hh
  | lit => exact .lit
  | any => exact .any
  | dt => cases ht <;> first | cases hh | (rename_i h; cases h)
  | pattern => cases ht <;> first | cases hh | (rename_i h; cases h)
  | timedelta => cases ht <;> first | cases hh | (rename_i h; cases h)
  | strcons => cases ht <;> first | cases hh | (rename_i h; cases h)
  | coll => rename_i k t; cases k <;> cases hl
  | obj => rename_i c; revert hl; cases (W.cls c).kind <;> intro hl <;> cases hl
  | bare hb => rcases hb with rfl | rfl | rfl | rfl | rfl <;> cases hl
  | _ => cases hl

/-- Errors of handlers that do not call others. -/
theorem leaf_culprit {h : Handler} {v : Val} {t : Ty} {e : Exc} (hp : Picked W C t h)
    (hleaf : h.isLeaf = true) (ho : ∀ rec : Rec, step W C rec h v t = M.lift (.error e)) : e.isTL = true ∨ Culprit W C F v t := by
  have hs := leaf_err ho
  cases hp with
  | none =>
    simp only [step, noneload] at hs
    split at hs <;> cases hs; exact Or.inl rfl
  | basic hb hn =>
    simp only [step, basicload] at hs
    split at hs
    · split at hs
      · rename_i p _ _
        cases hc : pyCall W (.prim p) v with
        | ok x => rw [hc] at hs; cases hs
        | error e => rw [hc] at hs; dsimp only at hs; (repeat' split at hs) <;> cases hs <;> exact Or.inl rfl
      · cases hs; exact Or.inl rfl
    · cases hs
  | lit =>
    simp only [step, literalload] at hs
    split at hs <;> cases hs; exact Or.inl rfl
  | dt =>
    rename_i k
    simp only [step, datetimeload] at hs
    cases hx : dtParse W k v with
    | ok x => rw [hx] at hs; cases hs
    | error x =>
      rw [hx] at hs; dsimp only at hs
      split at hs
      · cases hs; exact Or.inl rfl
      · split at hs
        · cases hs; exact Or.inl rfl
        · rename_i h1 h2
          cases hs
          cases htl : x.isTL
          · exact Or.inr (.date hx ⟨by simpa using h1, by simpa using h2, htl⟩)
          · exact Or.inl htl
  | pattern =>
    simp only [step, patternload] at hs
    cases hx : patCompile W v with
    | ok x => rw [hx] at hs; cases hs
    | error x =>
      rw [hx] at hs; dsimp only at hs
      split at hs
      · cases hs; exact Or.inl rfl
      · split at hs
        · cases hs; exact Or.inl rfl
        · rename_i h1 h2
          cases hs
          exact Or.inr (.pattern hx (by simpa using h2) h1)
  | timedelta =>
    simp only [step, timedeltaload] at hs
    cases hx : tdSeconds W v with
    | ok x => rw [hx] at hs; cases hs
    | error x =>
      rw [hx] at hs; dsimp only at hs
      split at hs
      · cases hs; exact Or.inl rfl
      · rename_i h2
        cases hs
        exact Or.inr (.timedelta hx (by simpa using h2))
  | strcons =>
    rename_i c _
    simp only [step, strconstructload] at hs
    cases hx : pyCall W (.strcons c) v with
    | ok x => rw [hx] at hs; cases hs
    | error e => rw [hx] at hs; dsimp only at hs; (repeat' split at hs) <;> cases hs <;> exact Or.inl rfl
  | any => simp only [step, anyload] at hs; cases hs
  | coll => rename_i k t; cases k <;> cases hleaf
  | obj => rename_i c; revert hleaf; cases (W.cls c).kind <;> intro hleaf <;> cases hleaf
  | bare hb => rcases hb with rfl | rfl | rfl | rfl | rfl <;> cases hleaf
  | _ => cases hleaf

theorem attrHints_stop : ∀ (fs : List Field), attrHints fs = .error .stopIteration →
    ∃ f ∈ fs, ∃ cv, f.conv = some cv ∧ cv.params = [] ∧ cv.ret = true
  | [], h => by cases h
  | f :: fs, h => by
    simp only [attrHints] at h
    cases hc : f.conv with
    | none =>
      rw [hc] at h; dsimp only at h
      cases hr : attrHints fs with
      | error e =>
        rw [hr] at h; cases h
        obtain ⟨g, hg, h'⟩ := attrHints_stop fs hr
        exact ⟨g, by simp [hg], h'⟩
      | ok r => rw [hr] at h; cases h
    | some cv =>
      rw [hc] at h; dsimp only at h
      cases hv : convType cv with
      | error e =>
        refine ⟨f, by simp, cv, hc, ?_⟩
        unfold convType at hv
        by_cases hl : 0 < cv.params.length + (if cv.ret then 1 else 0) ∧ cv.params.length + (if cv.ret then 1 else 0) ≤ 2
        · rw [if_pos hl] at hv
          cases hp : cv.params with
          | nil =>
            rw [hp] at hl
            cases hr : cv.ret with
            | true => exact ⟨rfl, rfl⟩
            | false => rw [hr] at hl; simp at hl
          | cons => rw [hp] at hv; cases hv
        · rw [if_neg hl] at hv; cases hv
      | ok ty =>
        rw [hv] at h; dsimp only at h
        cases hr : attrHints fs with
        | error e =>
          rw [hr] at h; cases h
          obtain ⟨g, hg, h'⟩ := attrHints_stop fs hr
          exact ⟨g, by simp [hg], h'⟩
        | ok r => rw [hr] at h; cases h

theorem construct_error {c : Nat} {params : List (String × Val)} {x : ExcClass} (h : construct W c params = .error x) :
    x = .type ∨ ∃ fs, W.initHook c fs = .error x := by
  have fill : ∀ fs x, fillFields params fs = .error x → x = .type := by
    intro fs
    induction fs with
    | nil => intro x h; cases h
    | cons f fs ih =>
      intro x h
      unfold fillFields at h
      cases hf : fillField params f with
      | error y =>
        rw [hf] at h; cases h
        unfold fillField at hf
        repeat' split at hf
        all_goals cases hf
        rfl
      | ok p =>
        rw [hf] at h; dsimp only at h
        cases hr : fillFields params fs with
        | error y => rw [hr] at h; cases h; exact ih _ hr
        | ok ps => rw [hr] at h; cases h
  have inst : (if params.all (fun p => isInitArg (W.cls c) p.1) then
      match fillFields params (W.cls c).fields with
      | .error e => .error e
      | .ok fs => (W.initHook c fs).map (.inst c)
      else .error .type : Except ExcClass Val) = .error x → x = .type ∨ ∃ fs, W.initHook c fs = .error x := by
    intro h
    split at h
    · cases hf : fillFields params (W.cls c).fields with
      | error y => rw [hf] at h; cases h; exact Or.inl (fill _ _ hf)
      | ok fs =>
        rw [hf] at h; dsimp only at h
        cases hi : W.initHook c fs with
        | error y => rw [hi] at h; cases h; exact Or.inr ⟨fs, hi⟩
        | ok r => rw [hi] at h; cases h
    · cases h; exact Or.inl rfl
  unfold construct at h
  cases hk : (W.cls c).kind with
  | typeddict => simp only [hk] at h; cases h
  | namedtuple =>
    simp only [hk] at h
    cases hf : fillFields params (W.cls c).fields with
    | error y => rw [hf] at h; cases h; exact Or.inl (fill _ _ hf)
    | ok fs => rw [hf] at h; cases h
  | dataclass => simp only [hk] at h; exact inst h
  | attrs => simp only [hk] at h; exact inst h

theorem hashableN_false {hc : Nat → Bool} {xs : List (String × Val)} (h : hashableN hc xs = false) : ∃ p ∈ xs, hashable hc p.2 = false := by
  induction xs with
  | nil => simp [hashableN] at h
  | cons x xs ih =>
    obtain ⟨n, x⟩ := x
    unfold hashableN at h
    simp only [hashableS] at h
    cases hx : hashable hc x with
    | false => exact ⟨(n, x), by simp, hx⟩
    | true =>
      rw [hx] at h
      obtain ⟨y, hy, h⟩ := ih (by simpa using h)
      exact ⟨y, by simp [hy], h⟩

/-- The attributes of a new instance are arguments or defaults. -/
theorem fillFields_from {params : List (String × Val)} {fl : List Field} {fs : List (String × Val)} (h : fillFields params fl = .ok fs) :
    ∀ p ∈ fs, ∃ f ∈ fl, f.default = some p.2 ∨ p ∈ params := by
  have hall : ∀ f ∈ fl, ∀ l, fillField params f = .ok l → ∀ p ∈ l, f.default = some p.2 ∨ p ∈ params := by
    intro f hf l hl
    unfold fillField at hl
    cases ha : aget params f.name with
    | some y => rw [ha] at hl; cases hl; simp [aget_mem ha]
    | none =>
      rw [ha] at hl; dsimp only at hl
      cases hdf : f.default with
      | some d => rw [hdf] at hl; cases hl; simp
      | none => rw [hdf] at hl; dsimp only at hl; split at hl <;> cases hl; simp
  obtain ⟨ls, hz, rfl⟩ := fillFields_zip hall h
  intro p hp
  obtain ⟨l, hl, hpl⟩ := List.mem_flatten.1 hp
  obtain ⟨f, hf, hfl⟩ := hz.mem_right hl
  exact ⟨f, hf, hfl p hpl⟩

theorem construct_hash {c : Nat} {params : List (String × Val)} {r : Val} (h : construct W c params = .ok r) (hh : W.hash r = false)
    (hp : ∀ p ∈ params, W.hash p.2 = false → ∃ f ∈ (W.cls c).fields, ∃ t, FieldTy (W.cls c).kind f t ∧ Unhashy W C F t) : Unhashy W C F (.obj c) := by
  have given : ∀ {fs : List (String × Val)} {p : String × Val}, fillFields params (W.cls c).fields = .ok fs → p ∈ fs → W.hash p.2 = false → Unhashy W C F (.obj c) := by
    intro fs p hf hm hx
    obtain ⟨f, hff, h | h⟩ := fillFields_from hf p hm
    · exact .default hff h hx
    · obtain ⟨f, hf, t, h1, h2⟩ := hp p h hx
      exact .field hf h1 h2
  have inst : ∀ {fs fs' : List (String × Val)}, (W.cls c).kind ≠ .namedtuple → fillFields params (W.cls c).fields = .ok fs → W.initHook c fs = .ok fs' →
      W.hash (.inst c fs') = false → Unhashy W C F (.obj c) := by
    intro fs fs' hk hf hi hx
    unfold World.hash hashable at hx
    cases hc : W.hc c with
    | false => exact .inst hk hc
    | true =>
      rw [hc] at hx
      obtain ⟨p, hm, hx⟩ := hashableN_false (by simpa using hx)
      by_cases hin : p ∈ fs
      · exact given hf hin hx
      · exact .init hi hm hin hx
  cases hk : (W.cls c).kind with
  | typeddict => exact .typeddict hk
  | namedtuple =>
    unfold construct at h
    simp only [hk] at h
    cases hf : fillFields params (W.cls c).fields with
    | error y => rw [hf] at h; cases h
    | ok fs =>
      rw [hf] at h; cases h
      unfold World.hash hashable at hh
      obtain ⟨p, hm, hx⟩ := hashableN_false hh
      exact given hf hm hx
  | dataclass =>
    unfold construct at h
    simp only [hk] at h
    split at h
    · split at h
      · cases h
      · rename_i fs hf
        cases hi : W.initHook c fs with
        | error y => rw [hi] at h; cases h
        | ok x => rw [hi] at h; cases h; exact inst (by rw [hk]; simp) hf hi hh
    · cases h
  | attrs =>
    unfold construct at h
    simp only [hk] at h
    split at h
    · split at h
      · cases h
      · rename_i fs hf
        cases hi : W.initHook c fs with
        | error y => rw [hi] at h; cases h
        | ok x => rw [hi] at h; cases h; exact inst (by rw [hk]; simp) hf hi hh
    · cases h

/-- What a step guarantees about hashability of results and the kind of errors. -/
def CrashInv (W : World) (C : Config) (F : String → Ty → Prop) (h : Handler) (v : Val) (t : Ty) (o : Except Exc Val) : Prop :=
  pick W C t = .ok h → (∀ r, o = .ok r → W.hash r = false → Unhashy W C F t) ∧ (∀ e, o = .error e → e.isTL = true ∨ Culprit W C F v t)

theorem basic_unhashy {p : Prim} {r : Val} (ht : HasType W NoUser F (.prim p) r) (hh : W.hash r = false) : Unhashy W C F (.prim p) := by
  cases ht with
  | user h => cases h
  | prim h => rw [isInst_hash (typeOf_isInst h)] at hh; cases hh

theorem basic_culprit {p : Prim} {v : Val} {e : Exc} (ho : ∀ rec : Rec, step W C rec .basicload v (.prim p) = M.lift (.error e)) : e.isTL = true := by
  have hs := leaf_err ho
  simp only [step, basicload] at hs
  split at hs
  · split at hs
    · cases hc : pyCall W (.prim p) v with
      | ok x => rw [hc] at hs; cases hs
      | error e => rw [hc] at hs; dsimp only at hs; (repeat' split at hs) <;> cases hs <;> rfl
    · cases hs; rfl
  · cases hs

/-- Whose fault it is that a handler of the user raises. -/
theorem ScriptSem.blame {P : Handler → Val → Ty → Except Exc Val → Prop} {Q : Val → Ty → Prop} {p : Script} {e : Exc}
    (h : ScriptSem W C P p (.error e)) (hQ : ∀ {v t a e}, LoadSem W C P v t a (.error e) → e.isTL = true ∨ Q v t) :
    e.isTL = true ∨ p.MayRaise e ∨ ∃ x u, p.Asks x u ∧ Q x u := by
  generalize ho : (Except.error e : Except Exc Val) = o at h
  induction h with
  | ret => cases ho
  | raise => cases ho; exact Or.inr (Or.inl .raise)
  | call hl _ ih =>
    rename_i o o' _
    rcases ih ho with h | h | ⟨x, u, h1, h2⟩
    · exact Or.inl h
    · cases o with
      | ok y => exact Or.inr (Or.inl (.answer h))
      | error e' =>
        rcases hQ hl with h' | h'
        · exact Or.inr (Or.inl (.except h' h))
        · exact Or.inr (Or.inr ⟨_, _, .here, h'⟩)
    · exact Or.inr (Or.inr ⟨x, u, .later h1, h2⟩)

theorem crash_step (hm : C.Mixed) (hcc : CalmConditions W C) (hl : W.Lawful) {F F' : String → Ty → Prop} (hF : ∀ n u, F n u → F' n u) (h : Handler) (v : Val) (t : Ty)
    (o : Except Exc Val) (hs : StepSem W C F (CrashInv W C F') h v t o) : CrashInv W C F' h v t o := by
  intro hp
  have hok : ∀ {x u a r}, LoadSem W C (CrashInv W C F') x u a (.ok r) → W.hash r = false → Unhashy W C F' u := by
    intro x u a r h hh
    cases h with | ok hp h => exact (h hp).1 r rfl hh
  have herr : ∀ {x u a e}, LoadSem W C (CrashInv W C F') x u a (.error e) → e.isTL = true ∨ Culprit W C F' x u := by
    intro x u a e h
    cases h with
    | noHandler hn => rw [lookupExc_calm hcc hn]; exact Or.inl rfl
    | err hp h =>
      unfold loadExc
      split
      · rename_i h; exact Or.inl (by simpa using h)
      · rename_i hn; exact Or.inr (((h hp).2 _ rfl).resolve_left hn)
  have hcall : ∀ {m x u e}, CallSem W C (CrashInv W C F') m x u (.error e) → m.isTL = true → e.isTL = true ∨ Culprit W C F' x u := by
    intro m x u e h hm
    cases h with
    | noHandler hn => rw [lookupExc_calm hcc hn]; exact Or.inl hm
    | call hp h => exact (h hp).2 _ rfl
  have okOnly : ∀ {r : Val}, (W.hash r = false → Unhashy W C F' t) →
      (∀ r', (.ok r : Except Exc Val) = .ok r' → W.hash r' = false → Unhashy W C F' t) ∧
      (∀ e, (.ok r : Except Exc Val) = .error e → e.isTL = true ∨ Culprit W C F' v t) :=
    fun h => ⟨fun r' hr => (by cases hr; exact h), fun e he => (by cases he)⟩
  have errOnly : ∀ {e : Exc}, (e.isTL = true ∨ Culprit W C F' v t) →
      (∀ r', (.error e : Except Exc Val) = .ok r' → W.hash r' = false → Unhashy W C F' t) ∧
      (∀ e', (.error e : Except Exc Val) = .error e' → e'.isTL = true ∨ Culprit W C F' v t) :=
    fun h => ⟨fun r' hr => (by cases hr), fun e he => (by cases he; exact h)⟩
  cases hs with
  | leaf hleaf h =>
    rcases picked_mixed hm hp with hpk | ⟨p, rfl, rfl⟩ | ⟨i, rfl⟩
    · cases o with
      | ok r => exact okOnly (fun hh => leaf_unhashy hpk hleaf (leaf_typed (F := F') hl hpk hleaf h) hh)
      | error e => exact errOnly (leaf_culprit hpk hleaf h)
    · cases o with
      | ok r => exact okOnly (fun hh => basic_unhashy (basic_typed (F := F') hl h) hh)
      | error e => exact errOnly (Or.inl (basic_culprit h))
    · cases hleaf
  | mismatch hl hs =>
    rcases picked_mixed hm hp with hpk | ⟨p, rfl, rfl⟩ | ⟨i, rfl⟩
    · obtain ⟨g, rfl⟩ := picked_suits hpk hl hs; exact errOnly (Or.inr .bare)
    · cases hl
    · cases hs
  | iterDict => exact errOnly (Or.inl rfl)
  | iterLookup _ hn => exact errOnly (Or.inl (by rw [lookupExc_calm hcc hn]; rfl))
  | iterNot => exact errOnly (Or.inl rfl)
  | iterErr hk _ _ hp' hit =>
    obtain ⟨j, x, _, ⟨e', _, rfl⟩ | ⟨c, rfl⟩⟩ := hit.error rfl <;> exact errOnly (Or.inl (elemError_tl _ _ _ _))
  | @iter _ _ k k' et h' _ ys hk hnd hx hp' hit =>
    have : k' = k := by
      rcases picked_mixed hm hp with hpk | ⟨p, h, rfl⟩ | ⟨i, rfl⟩
      · exact picked_coll hpk hk
      · cases h
      · cases hk
    subst this
    refine okOnly (fun hh => ?_)
    cases k' with
    | list => exact .list
    | set => exact .set
    | frozenset => cases hh
    | tuple =>
      have := hit.elems (Q := fun y => W.hash y = false → Unhashy W C F' et) ?_ ⟨by simp, fun _ => by simp [SetLike]⟩ _ rfl
      · obtain ⟨y, hy, hyh⟩ := hashableL_false hh
        exact .elem (this.1 y hy hyh)
      · rintro x y (⟨hpt, rfl⟩ | hP) hyh
        · exfalso
          rcases hpt with ⟨p, rfl, _, h⟩ | ⟨ts, rfl, hb, h⟩
          · rw [isInst_hash h] at hyh; cases hyh
          · have := hb _ h
            generalize ht : typeOf y = u at *
            cases u <;> simp [Config.isBasic] at this
            rw [isInst_hash (typeOf_isInst ht)] at hyh; cases hyh
        · exact (hP hp').1 y rfl hyh
  | tupDict => exact errOnly (Or.inl rfl)
  | tupLen hn => exact errOnly (Or.inr (.tuple hn))
  | tupSize => exact errOnly (Or.inl rfl)
  | tupErr _ _ _ htup =>
    obtain ⟨j, x, u, _, _, e', _, rfl⟩ := htup.error rfl
    exact errOnly (Or.inl (elemError_tl _ _ _ _))
  | @tup _ ts _ ys hnd hx hlen _ htup =>
    refine okOnly (fun hh => ?_)
    have := htup.elems (Q := fun u y => W.hash y = false → Unhashy W C F' u) ?_ hlen _ rfl
    · obtain ⟨y, hy, hyh⟩ := hashableL_false hh
      obtain ⟨i, hi, hy'⟩ := List.mem_iff_getElem.1 hy
      have hi' : i < ts.length := by rw [← this.1]; exact hi
      refine .tuple (List.getElem_mem hi') (this.2 i y _ ?_ (List.getElem?_eq_getElem hi') hyh)
      rw [List.getElem?_eq_getElem hi, hy']
    · rintro h x u y _ hp' (⟨hb, ht, rfl⟩ | hP) hyh
      · exfalso
        cases u <;> simp [Config.isBasic] at hb
        rw [isInst_hash (typeOf_isInst ht)] at hyh; cases hyh
      · exact (hP hp').1 y rfl hyh
  | dictLookup _ hn => exact errOnly (Or.inl (by rw [lookupExc_calm hcc hn]; rfl))
  | dictNot => exact errOnly (Or.inl rfl)
  | dictFast => exact okOnly (fun _ => .dict)
  | dictSlow => exact okOnly (fun _ => .dict)
  | dictErr hdata _ _ hf =>
    refine errOnly ?_
    obtain ⟨p, hpm, h | h | ⟨rfl, k', h, hh⟩⟩ := hf.error rfl
    · split
      · exact Or.inl rfl
      · exact (herr h).imp id (.key hdata hpm)
    · split
      · exact Or.inl rfl
      · exact (herr h).imp id (.value hdata hpm)
    · exact Or.inr (.keyHash hdata (List.ne_nil_of_mem hpm) (hok h hh))
  | obj hob =>
    rename_i c
    cases hob with
    | stop hk hst =>
      obtain ⟨f, hf, cv, h1, h2, h3⟩ := attrHints_stop _ hst
      exact errOnly (Or.inr (.converter hk hf h1 h2 h3))
    | mangle _ _ he => obtain ⟨cl, m, h1, rfl⟩ := he; exact errOnly (Or.inl h1)
    | noDict => exact errOnly (Or.inl rfl)
    | missing => exact errOnly (Or.inl rfl)
    | extra => exact errOnly (Or.inl rfl)
    | extraKey hi hm hfe hk =>
      obtain ⟨p, hp', hk⟩ := hk
      obtain ⟨q, hq, hk'⟩ := hm.nonstr_mem hp' hk
      exact errOnly (Or.inr (.extraKey hfe hm.1 hq hk'))
    | field hi hm _ hfs =>
      obtain ⟨m, x, ft, hmem, hh, ⟨h', e', hp', hP, rfl⟩ | ⟨c', hn, rfl⟩⟩ := hfs.error rfl
      · refine errOnly ?_
        obtain ⟨f, hf, _, hft⟩ := hi.hints m ft hh
        obtain ⟨k, hk⟩ := hm.value_mem hmem
        split
        · rename_i htl; exact Or.inl (by simpa using htl)
        · rename_i htl
          exact Or.inr (.field hm.1 hk hf hft (((hP hp').2 _ rfl).resolve_left htl))
      · exact errOnly (Or.inl (by rw [lookupExc_calm hcc hn]; rfl))
    | @construct _ _ _ _ x _ _ _ _ hcon =>
      refine errOnly ?_
      unfold constructExc
      split
      · exact Or.inl rfl
      · split
        · exact Or.inl rfl
        · rename_i h1 h2
          cases htl : x.isTL
          · rcases construct_error hcon with rfl | ⟨fs, hi⟩
            · simp [ExcClass.isType] at h1
            · exact Or.inr (.constructor hi ⟨by simpa using h1, by simpa using h2, htl⟩)
          · exact Or.inl htl
    | @ok info kvs kvs' params _ hi _ _ _ hfs hcon =>
      obtain ⟨h1, _⟩ := hfs.entries (Q := fun _ y => W.hash y = false → ∃ f ∈ (W.cls c).fields, ∃ t, FieldTy (W.cls c).kind f t ∧ Unhashy W C F' t)
        (by
          intro m ft h x y hh hp' hP hx
          obtain ⟨f, hf, _, hft⟩ := hi.hints m ft hh
          exact ⟨f, hf, ft, hft, (hP hp').1 y rfl hx⟩) (by simp) (by simp) _ rfl
      exact okOnly (fun hh => construct_hash hcon hh h1)
  | unionBasic hb =>
    refine okOnly (fun hh => ?_)
    exfalso
    obtain ⟨hb1, _⟩ := hb
    generalize ht : typeOf v = u at *
    cases u <;> simp [Config.isBasic] at hb1
    rw [isInst_hash (typeOf_isInst ht)] at hh; cases hh
  | unionTag hu => exact errOnly (Or.inr (.tag hu))
  | unionCrash _ hord htry =>
    obtain ⟨htl, u, hu, h⟩ := htry.crashed rfl
    exact errOnly (Or.inr (.member (hord.perm.mem_iff.1 hu) ((hcall h rfl).resolve_left (by simp [htl]))))
  | unionOne hne hord htry =>
    refine okOnly (fun hh => ?_)
    obtain ⟨u, hu, hcall⟩ := (htry.winner _ _ _ rfl).resolve_left (fun h => by cases h.1)
    refine .union (hord.perm.mem_iff.1 hu) ?_
    cases hcall with
    | call hp' hP => exact (hP hp').1 _ rfl hh
  | unionNone => exact errOnly (Or.inl rfl)
  | unionMany => exact errOnly (Or.inl rfl)
  | enumMember hm =>
    refine okOnly (fun hh => ?_)
    have := enumCall_typed (U := NoUser) (F := F') hm
    cases this <;> first | cases hh | (rename_i h; cases h)
  | enumHints hn hh =>
    cases o with
    | ok r =>
      refine okOnly (fun hr => ?_)
      obtain ⟨x, hx⟩ := hh.member r rfl
      have := enumCall_typed (U := NoUser) (F := F') hx
      cases this <;> first | cases hr | (rename_i h; cases h)
    | error e => obtain ⟨es', rfl, _⟩ := hh.error rfl; exact errOnly (Or.inl rfl)
  | frefDisabled => exact errOnly (Or.inl rfl)
  | frefUnknown => exact errOnly (Or.inl rfl)
  | fref hf _ hl' =>
    cases o with
    | ok r => exact okOnly (fun hh => .fref (hF _ _ hf) (hok hl' hh))
    | error e => exact errOnly ((herr hl').imp id (.fref (hF _ _ hf)))
  | newtype hl' =>
    cases o with
    | ok r => exact okOnly (fun hh => .newtype (hok hl' hh))
    | error e => exact errOnly ((herr hl').imp id .newtype)
  | custom hi hsc =>
    cases o with
    | ok r => exact okOnly (fun hh => .user hp (hsc.mayReturn (fun _ => trivial)) hh)
    | error e =>
      refine errOnly ?_
      rcases hsc.blame (fun h => herr h) with h | h | ⟨x, u, ha, h⟩
      · exact Or.inl h
      · cases htl : e.isTL
        · exact Or.inr (.user hp h htl)
        · exact Or.inl rfl
      · exact Or.inr (.asked hp ha h)

theorem raises_crash (hm : C.Mixed) (hcc : CalmConditions W C) (hl : W.Lawful) {s s' : LState} (hs : Reachable W C s) {v : Val} {t : Ty} {e : Exc}
    (h : Raises W C s v t e s') : e.isTL = true ∨ Culprit W C (fun n u => Meets W C s t u ∧ Known W s n u) v t := by
  rcases h.sem (Meets.closed s t) (fun h v t o _ hs => crash_step hm hcc hl (fun _ _ h => h) h v t o hs)
      (hs.good_meets t) .self with ⟨hh, e', hp, hP, rfl⟩ | ⟨c, hp, rfl⟩
  · unfold loadExc
    split
    · rename_i h; exact Or.inl (by simpa using h)
    · rename_i hn; exact Or.inr (((hP hp).2 _ rfl).resolve_left hn)
  · rw [lookupExc_calm hcc hp]; exact Or.inl rfl

theorem Unhashy.mono {F F' : String → Ty → Prop} (hF : ∀ n u, F n u → F' n u) {t : Ty} (h : Unhashy W C F t) : Unhashy W C F' t := by
  induction h with
  | any => exact .any
  | lit => exact .lit
  | list => exact .list
  | set => exact .set
  | elem _ ih => exact .elem ih
  | tuple h _ ih => exact .tuple h ih
  | dict => exact .dict
  | union h _ ih => exact .union h ih
  | newtype _ ih => exact .newtype ih
  | fref h _ ih => exact .fref (hF _ _ h) ih
  | typeddict h => exact .typeddict h
  | inst h1 h2 => exact .inst h1 h2
  | field h1 h2 _ ih => exact .field h1 h2 ih
  | default h1 h2 h3 => exact .default h1 h2 h3
  | init h1 h2 h3 h4 => exact .init h1 h2 h3 h4
  | user h1 h2 h3 => exact .user h1 h2 h3

theorem Culprit.mono {F F' : String → Ty → Prop} (hF : ∀ n u, F n u → F' n u) {v : Val} {t : Ty} (h : Culprit W C F v t) : Culprit W C F' v t := by
  induction h with
  | tuple h => exact .tuple h
  | tag h => exact .tag h
  | keyHash h1 h2 h3 => exact .keyHash h1 h2 (h3.mono hF)
  | extraKey h1 h2 h3 h4 => exact .extraKey h1 h2 h3 h4
  | constructor h1 h2 => exact .constructor h1 h2
  | converter h1 h2 h3 h4 h5 => exact .converter h1 h2 h3 h4 h5
  | date h1 h2 => exact .date h1 h2
  | timedelta h1 h2 => exact .timedelta h1 h2
  | pattern h1 h2 h3 => exact .pattern h1 h2 h3
  | bare => exact .bare
  | user h1 h2 h3 => exact .user h1 h2 h3
  | asked h1 h2 _ ih => exact .asked h1 h2 ih
  | member h _ ih => exact .member h ih
  | newtype _ ih => exact .newtype ih
  | fref h _ ih => exact .fref (hF _ _ h) ih
  | key h1 h2 _ ih => exact .key h1 h2 ih
  | value h1 h2 _ ih => exact .value h1 h2 ih
  | field h1 h2 h3 h4 _ ih => exact .field h1 h2 h3 h4 ih

/-- **C05** (partial). A failing load raises a TypedloadException, unless data and type exhibit one of the reasons listed in
`Culprit`.  For every value, type and history, with handlers added by the user anywhere in the list and default handlers removed or moved.
Missing: the listed reasons; for these the claim is false, see the counterexamples. -/
theorem C05_user_partial (hm : C.Mixed) (hcc : CalmConditions W C) (hl : W.Lawful) {s s' : LState} (hs : Reachable W C s) {v : Val} {t : Ty} {e : Exc}
    (h : Raises W C s v t e s') : e.isTL = true ∨ Culprit W C (Known W s) v t :=
  (raises_crash hm hcc hl hs h).imp id (Culprit.mono (fun _ _ h => h.2))

/-- **C05** (partial). A failing load raises a TypedloadException, unless data and type exhibit one of the reasons listed in
`Culprit`.  For every value, type, configuration with the default handlers and history.
Missing: the listed reasons; for these the claim is false, see the counterexamples. -/
theorem C05_typed_errors_partial (hd : C.Default) (hl : W.Lawful) {s s' : LState} (hs : Reachable W C s) {v : Val} {t : Ty} {e : Exc}
    (h : Raises W C s v t e s') : e.isTL = true ∨ Culprit W C (Known W s) v t :=
  C05_user_partial hd.mixed hd.calm hl hs h

theorem Sample.calmB : CalmConditions Sample.WB Sample.CB := by
  refine Or.inr (fun p hp t x => ?_)
  rcases List.mem_cons.1 hp with rfl | hp
  · exact fun h => by cases h
  · rcases Config.Default.calm (W := Sample.WB) (C := Sample.C) rfl with h | h
    · cases h
    · exact h p hp t x

/-- The hypotheses of `C05_user_partial`, with a handler that calls the loader back and lets its exceptions pass; the second disjunct does not
hold. -/
example : Sample.CB.Mixed ∧ CalmConditions Sample.WB Sample.CB ∧ Sample.WB.Lawful ∧ Reachable Sample.WB Sample.CB (fresh []) ∧
    (∃ e s', Raises Sample.WB Sample.CB (fresh []) (.str "q") (.strcons "Path") e s' ∧ e.isTL = true) ∧
    ¬ Culprit Sample.WB Sample.CB (Known Sample.WB (fresh [])) (.str "q") (.strcons "Path") := by
  refine ⟨Sample.mixedB, Sample.calmB, Sample.lawfulB, .new _ _, ⟨_, _, ⟨9, rfl⟩, rfl⟩, ?_⟩
  intro h
  cases h with
  | user _ h1 h2 =>
    change (Sample.callback (.str "q") (.strcons "Path")).MayRaise _ at h1
    unfold Sample.callback at h1; rw [if_pos rfl] at h1
    cases h1 with
    | answer h => cases h
    | except h h' => cases h'; rw [h] at h2; cases h2
  | asked _ h1 h2 =>
    change (Sample.callback (.str "q") (.strcons "Path")).Asks _ _ at h1
    unfold Sample.callback at h1; rw [if_pos rfl] at h1
    cases h1 with
    | here =>
      cases h2 with
      | user h => exact absurd (show Except.ok Handler.basicload = _ from h) (by simp)
      | asked h => exact absurd (show Except.ok Handler.basicload = _ from h) (by simp)
    | later h => rename_i o; cases o <;> cases h

/-- A type that cannot crash by itself: no fixed-size tuple, no unsubscripted collection, no date or interval; dictionary keys that
cannot be unhashable; unions without literal fields common to all members; classes whose constructor raises TypeError and ValueError
only and without converters that have only a return annotation. -/
def Sturdy (W : World) (C : Config) (F : String → Ty → Prop) : Ty → Prop
  | .tuple _ => False
  | .bare _ => False
  | .dt _ => False
  | .timedelta => False
  | .pattern _ => ∀ x c, W.reCompile x = .error c → c = .reError ∨ c.isType = true
  | .dict kt _ => ¬ Unhashy W C F kt
  | .union ts => ∀ k, ¬ ∀ u ∈ ts, HasLiteralField W u k
  | .obj c => (∀ fs x, W.initHook c fs = .error x → ¬ Odd x) ∧ ∀ f ∈ (W.cls c).fields, ∀ cv, f.conv = some cv → cv.params ≠ []
  | _ => True

theorem Culprit.sturdy (hd : C.Default) (hfe : C.failonextra = false) {s : LState} {t : Ty}
    (hst : ∀ u, Meets W C s t u → Sturdy W C (Known W s) u) {v : Val} {u : Ty}
    (h : Culprit W C (fun n u => Meets W C s t u ∧ Known W s n u) v u) (hm : Meets W C s t u) : False := by
  induction h with
  | tuple h => exact hst _ hm
  | tag h =>
    obtain ⟨kvs, k, x, _, h, _⟩ := h
    exact hst _ hm k h
  | keyHash h1 h2 h3 => exact hst _ hm (h3.mono (fun _ _ h => h.2))
  | extraKey h1 => rw [hfe] at h1; cases h1
  | constructor h1 h2 => exact (hst _ hm).1 _ _ h1 h2
  | converter h1 h2 h3 h4 h5 => exact (hst _ hm).2 _ h2 _ h3 h4
  | date => exact hst _ hm
  | timedelta => exact hst _ hm
  | pattern h1 h2 h3 =>
    rename_i v a x
    have h4 := hst _ hm
    unfold patCompile at h1
    split at h1
    · cases h1
    · rename_i y
      cases hr : W.reCompile (.str y) with
      | ok u => rw [hr] at h1; cases h1
      | error c => rw [hr] at h1; cases h1; rcases h4 _ _ hr with h | h; exact h3 h; rw [h] at h2; cases h2
    · rename_i y
      cases hr : W.reCompile (.bytes y) with
      | ok u => rw [hr] at h1; cases h1
      | error c => rw [hr] at h1; cases h1; rcases h4 _ _ hr with h | h; exact h3 h; rw [h] at h2; cases h2
    · cases h1; cases h2
  | bare => exact hst _ hm
  | user h => exact absurd (pick_installed h) (not_installed hd _)
  | asked h => exact absurd (pick_installed h) (not_installed hd _)
  | member h _ ih => exact ih (.union hm h)
  | newtype _ ih => exact ih (.newtype hm)
  | fref h _ ih => exact ih h.1
  | key h1 h2 _ ih => exact ih (.dictKey hm)
  | value h1 h2 _ ih => exact ih (.dictVal hm)
  | field h1 h2 h3 h4 _ ih => exact ih (.field hm h3 h4)

/-- **C05** for types all of whose parts are sturdy: every failure is a TypedloadException, whatever the data. -/
theorem C05_sturdy (hd : C.Default) (hl : W.Lawful) (hfe : C.failonextra = false) {s s' : LState} (hs : Reachable W C s) {v : Val} {t : Ty}
    (hst : ∀ u, Meets W C s t u → Sturdy W C (Known W s) u) {e : Exc} (h : Raises W C s v t e s') : e.isTL = true :=
  (raises_crash hd.mixed hd.calm hl hs h).resolve_right (fun hc => hc.sturdy hd hfe hst .self)

/-- `List[Dict[str, P]]` is sturdy, and loading can fail. -/
example : (∀ u, Meets Sample.W Sample.C (fresh []) (.coll .list (.dict (.prim .str) (.obj 0))) u → Sturdy Sample.W Sample.C (Known Sample.W (fresh [])) u) ∧
    ∃ e s', Raises Sample.W Sample.C (fresh []) (.list [.dict [(.str "k", .dict [(.str "x", .str "no"), (.str "zed", .str "q")])]])
      (.coll .list (.dict (.prim .str) (.obj 0))) e s' := by
  refine ⟨?_, _, _, 9, rfl⟩
  have key : ∀ u, Meets Sample.W Sample.C (fresh []) (.coll .list (.dict (.prim .str) (.obj 0))) u →
      u = .coll .list (.dict (.prim .str) (.obj 0)) ∨ u = .dict (.prim .str) (.obj 0) ∨ u = .obj 0 ∨ u = .prim .str ∨ u = .prim .int := by
    intro u h
    induction h with
    | self => simp
    | known h => obtain ⟨fr, h1, h2⟩ := h; cases h1; cases h2
    | coll _ ih => simp at ih; simp [ih]
    | tuple _ _ ih => simp at ih
    | dictKey _ ih => simp at ih; simp [ih]
    | dictVal _ ih => simp at ih; simp [ih]
    | union _ _ ih => simp at ih
    | newtype _ ih => simp at ih
    | enum _ _ ih => simp at ih
    | custom hi _ _ => exact absurd hi (not_installed (C := Sample.C) rfl _)
    | field _ hf ht ih =>
      simp at ih; subst ih
      have hf' : _ ∈ Sample.clsP.fields := hf
      simp only [Sample.clsP, List.mem_cons, List.not_mem_nil, or_false] at hf'
      cases ht with
      | declared => rcases hf' with rfl | rfl | rfl <;> simp
      | converter _ h => cases h
      | untyped _ h => cases h
      | manyHints _ h => cases h
  intro u h
  rcases key u h with rfl | rfl | rfl | rfl | rfl
  · trivial
  · intro h; cases h with | user h => exact absurd (pick_installed h) (not_installed (C := Sample.C) rfl _)
  · refine ⟨fun fs x h => (by cases h), ?_⟩
    intro f hf cv hc
    have hf' : f ∈ Sample.clsP.fields := hf
    simp only [Sample.clsP, List.mem_cons, List.not_mem_nil, or_false] at hf'
    rcases hf' with rfl | rfl | rfl <;> cases hc
  · trivial
  · trivial

/-- The full claim is false: `load(1, Tuple[int, int])` raises AssertionError; so does a date too large. -/
theorem C05_counterexample : (∃ e s', Raises Sample.W Sample.C (fresh []) (.int 1) (.tuple [.prim .int, .prim .int]) e s' ∧ e.isTL = false) ∧
    (∃ e s', Raises Sample.W Sample.C (fresh []) (.list [.int (10 ^ 30), .int 1, .int 1]) (.dt .date) e s' ∧ e.isTL = false) ∧
    (∃ e s', Raises Sample.W { Sample.C with failonextra := true } (fresh [])
      (.dict [(.str "a", .int 1), (.int 3, .int 4)]) (.obj 1) e s' ∧ e.isTL = false) :=
  ⟨⟨_, _, ⟨1, rfl⟩, rfl⟩, ⟨_, _, ⟨1, rfl⟩, rfl⟩, ⟨_, _, ⟨3, rfl⟩, rfl⟩⟩

end TL
