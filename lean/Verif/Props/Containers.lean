import Verif.Props.Unions
/-!
# C15, C16: iterables and fixed-size tuples
-/

namespace TL

variable {W : World} {C : Config}

/-! ## Specification -/

/-- Elements that are not even looked at: instances of a basic element type (so `True` in a `List[int]`), and values whose exact
type is a member of a union of basic types. -/
def PassThrough (C : Config) (et : Ty) (x : Val) : Prop :=
  (∃ p, et = .prim p ∧ p ∈ C.basictypes ∧ isInst p x = true) ∨
  (∃ ts, et = .union ts ∧ (∀ u ∈ ts, C.isBasic u = true) ∧ typeOf x ∈ ts)

/-- Element `x` of the data becomes `y`: it is passed through, or `y` is what loading it into `et` produced at some moment. -/
def ElemLoads (W : World) (C : Config) (s : LState) (et : Ty) (x y : Val) : Prop :=
  (PassThrough C et x ∧ y = x) ∨ (¬ PassThrough C et x ∧ AcceptsAs W C s x et y)

/-- At some moment of this load the handler of `et` raised `e` on `x`. -/
def HandlerRaises (W : World) (C : Config) (s : LState) (x : Val) (et : Ty) (e : Exc) : Prop :=
  ∃ s1 s2, Ext W C s s1 ∧ HandleRaises W C s1 x et e s2

/-- The collection holding the given elements: sets drop elements equal to earlier ones. -/
def collect (k : SeqKind) (ys : List Val) : List Val := if k.isSet then ys.foldl setAdd [] else ys

/-! ## The element loop -/

theorem iterElem_pass (rec : Rec) (h : Handler) {et : Ty} {x : Val} (hp : PassThrough C et x) :
    iterElem C rec h et x = pure x := by
  rcases hp with ⟨p, rfl, hb, hi⟩ | ⟨ts, rfl, hb, hi⟩
  · simp [iterElem, Config.isBasic, hb, hi]
  · have : ts.all C.isBasic = true := by simpa using hb
    simp [iterElem, this, hi]

theorem iterElem_call (rec : Rec) (h : Handler) {et : Ty} {x : Val} (hp : ¬ PassThrough C et x) :
    iterElem C rec h et x = rec h x et := by
  unfold iterElem
  split
  · rename_i p
    split
    · rename_i hb
      rw [if_neg]
      intro hi; exact hp (Or.inl ⟨p, rfl, by simpa [Config.isBasic] using hb, hi⟩)
    · rfl
  · rename_i ts
    split
    · rename_i hb
      rw [if_neg]
      intro hi; exact hp (Or.inr ⟨ts, rfl, by simpa using hb, hi⟩)
    · rfl
  · rfl

theorem post_handler {n : Nat} {h : Handler} {x : Val} {et : Ty} {s0 s : LState} (he : Ext W C s0 s) (hc : Coh W C s)
    (hp : pick W C et = .ok h) (hi : aget s.idx et = some h) :
    Post (run W C n h x et) s (fun y s' => Ext W C s s' ∧ AcceptsAs W C s0 x et y)
      (fun e s' => Ext W C s s' ∧ HandlerRaises W C s0 x et e) := by
  have hx := run_ext (W := W) (C := C) n h x et s
  unfold Post
  cases hr : run W C n h x et s with
  | div => trivial
  | ok y s' => exact ⟨hx.ok hr, s, s', he, (handles_load hc hi).1 ⟨n, h, hp, hr⟩⟩
  | err e s' => exact ⟨hx.err hr, s, s', he, n, h, hp, hr⟩

/-- The elements were loaded one by one. -/
def IterOk (W : World) (C : Config) (s : LState) (k : SeqKind) (et : Ty) (xs : List Val) (acc res : List Val) : Prop :=
  ∃ pre post ys, xs = pre ++ post ∧ Zip2 (ElemLoads W C s et) pre ys ∧
    res = (if k.isSet then ys.foldl setAdd acc else acc ++ ys) ∧ (k.isSet = true → ∀ y ∈ ys, W.hash y = true) ∧
    (post = [] ∨ ∃ x e post', post = x :: post' ∧ HandlerRaises W C s x et e ∧ e.cls = .stopIteration ∧ usesMap C et = true)

/-- One element failed, the previous ones did not. -/
def IterErr (W : World) (C : Config) (s : LState) (k : SeqKind) (et : Ty) (v : Val) (t : Ty) (xs : List Val) (i : Nat) (e : Exc) : Prop :=
  ∃ pre x post ys, xs = pre ++ x :: post ∧ Zip2 (ElemLoads W C s et) pre ys ∧
    ((¬ PassThrough C et x ∧ ∃ e', HandlerRaises W C s x et e' ∧ e = elemError v t (i + pre.length) e') ∨
     (k.isSet = true ∧ ∃ y, ElemLoads W C s et x y ∧ W.hash y = false ∧ e = elemError v t (i + pre.length) (.plain .type)))

theorem post_iterElem {n : Nat} {h : Handler} {x : Val} {et : Ty} {s0 s : LState} (he : Ext W C s0 s) (hc : Coh W C s)
    (hp : pick W C et = .ok h) (hi : aget s.idx et = some h) :
    Post (iterElem C (run W C n) h et x) s (fun y s' => Ext W C s s' ∧ ElemLoads W C s0 et x y)
      (fun e s' => Ext W C s s' ∧ ¬ PassThrough C et x ∧ HandlerRaises W C s0 x et e) := by
  by_cases hpt : PassThrough C et x
  · rw [iterElem_pass _ _ hpt]; exact ⟨Ext.refl s, Or.inl ⟨hpt, rfl⟩⟩
  · rw [iterElem_call _ _ hpt]
    exact (post_handler he hc hp hi).mono (fun y s' h => ⟨h.1, Or.inr ⟨hpt, h.2⟩⟩) (fun e s' h => ⟨h.1, hpt, h.2⟩)

theorem post_iterElems {n : Nat} {h : Handler} {k : SeqKind} {et : Ty} {v : Val} {t : Ty} {s0 : LState}
    (hp : pick W C et = .ok h) (xs : List Val) :
    ∀ (i : Nat) (acc : List Val) (s : LState), Ext W C s0 s → Coh W C s → aget s.idx et = some h →
    Post (iterElems W C (run W C n) h k et v t xs i acc) s
      (fun res _ => IterOk W C s0 k et xs acc res) (fun e _ => IterErr W C s0 k et v t xs i e) := by
  induction xs with
  | nil =>
    intro i acc s _ _ _
    refine ⟨[], [], [], rfl, .nil, ?_, fun _ _ h => (by cases h), Or.inl rfl⟩
    split <;> simp
  | cons x xs ih =>
    intro i acc s he hc hi
    unfold iterElems
    rw [post_handle]
    refine (post_iterElem (n := n) (x := x) he hc hp hi).mono ?_ ?_
    · rintro y s' ⟨he', hy⟩
      unfold collAdd
      have next : ∀ acc', (k.isSet = true → acc' = setAdd acc y ∧ W.hash y = true) → (k.isSet = false → acc' = acc ++ [y]) →
          Post (iterElems W C (run W C n) h k et v t xs (i + 1) acc') s'
            (fun res _ => IterOk W C s0 k et (x :: xs) acc res) (fun e _ => IterErr W C s0 k et v t (x :: xs) i e) := by
        intro acc' h1 h2
        refine (ih (i + 1) acc' s' (he.trans he') (hc.ext he') (he'.idx_keep _ _ hi)).mono ?_ ?_
        · rintro res _ ⟨pre, post, ys, rfl, hz, hr, hh, hpost⟩
          refine ⟨x :: pre, post, y :: ys, rfl, .cons hy hz, ?_, ?_, hpost⟩
          · cases hk : k.isSet with
            | true => rw [hr, (h1 hk).1]; simp [hk]
            | false => rw [hr, h2 hk]; simp [hk]
          · intro hk z hz'
            rcases List.mem_cons.1 hz' with rfl | hz'
            · exact (h1 hk).2
            · exact hh hk z hz'
        · rintro e _ ⟨pre, x', post, ys, rfl, hz, hcase⟩
          refine ⟨x :: pre, x', post, y :: ys, rfl, .cons hy hz, ?_⟩
          have : i + (x :: pre).length = i + 1 + pre.length := by simp; omega
          rw [this]; exact hcase
      cases hk : k.isSet with
      | false =>
        simp only [Bool.false_eq_true, if_false]
        exact next _ (by simp [hk]) (fun _ => rfl)
      | true =>
        simp only [if_true]
        cases hh : W.hash y with
        | true => simp only [if_true]; exact next _ (fun _ => ⟨rfl, hh⟩) (by simp [hk])
        | false =>
          simp only [Bool.false_eq_true, if_false, post_throw]
          exact ⟨[], x, xs, [], rfl, .nil, Or.inr ⟨hk, y, hy, hh, by simp⟩⟩
    · rintro e s' ⟨he', hpt, hr⟩
      split
      · rename_i hm
        simp only [Bool.and_eq_true, beq_iff_eq] at hm
        refine ⟨[], x :: xs, [], rfl, .nil, ?_, fun _ _ h => (by cases h), Or.inr ⟨x, e, xs, rfl, hr, hm.2, hm.1⟩⟩
        split <;> simp
      · exact ⟨[], x, xs, [], rfl, .nil, Or.inl ⟨hpt, e, hr, by simp⟩⟩

/-- Outcome of the handler of a homogeneous collection. -/
theorem post_iterload {n : Nat} {k : SeqKind} {v : Val} {et : Ty} {s : LState} (hc : Coh W C s) :
    Post (iterload W C (run W C n) k v (.coll k et)) s
      (fun r _ => v.isDict = false ∧ ∃ xs ys, pyIter v = some xs ∧ r = .seq k ys ∧ IterOk W C s k et xs [] ys)
      (fun e _ => (v.isDict = true ∧ e = mkExc .tlType .dictAsIter v (.coll k et)) ∨
        (∃ c, pick W C et = .error c ∧ e = lookupExc (mkExc .tlType (.noHandler et) v et) c) ∨
        (v.isDict = false ∧ pyIter v = none ∧ e = mkExc .tlType (.py .type) v (.coll k et)) ∨
        (v.isDict = false ∧ ∃ xs, pyIter v = some xs ∧ IterErr W C s k et v (.coll k et) xs 0 e)) := by
  unfold iterload
  cases hv : v.isDict with
  | true => simp
  | false =>
    simp only [Bool.false_eq_true, if_false, post_bind]
    unfold Post
    rw [resolve_eq hc]
    cases hp : pick W C et with
    | error c => exact Or.inr (Or.inl ⟨c, rfl, rfl⟩)
    | ok h =>
      dsimp only
      cases hi : pyIter v with
      | none => exact Or.inr (Or.inr (Or.inl ⟨trivial, rfl, rfl⟩))
      | some xs =>
        simp only
        have he := cacheIdx_ext (s := s) hp
        have := post_iterElems (n := n) (k := k) (v := v) (t := .coll k et) (s0 := s) hp xs 0 [] (cacheIdx et h s) he
          (hc.ext he) (cacheIdx_idx hc hp)
        change Post (iterElems W C (run W C n) h k et v (.coll k et) xs 0 [] >>= fun ys => pure (Val.seq k ys)) _ _ _
        rw [post_bind]
        refine this.mono ?_ ?_
        · intro ys _ hy; exact ⟨trivial, xs, ys, rfl, rfl, hy⟩
        · intro e _ hy; exact Or.inr (Or.inr (Or.inr ⟨trivial, xs, rfl, hy⟩))

theorem step_coll (rec : Rec) (k : SeqKind) (v : Val) (et : Ty) (s : LState) :
    step W C rec (collHandler k) v (.coll k et) s = iterload W C rec k v (.coll k et) s := by
  cases k <;> rfl

theorem ElemLoads.back {s s1 : LState} {et : Ty} {x y : Val} (he : Ext W C s s1) (h : ElemLoads W C s1 et x y) :
    ElemLoads W C s et x y := by
  rcases h with h | ⟨h, s2, s3, a, b⟩
  · exact Or.inl h
  · exact Or.inr ⟨h, s2, s3, he.trans a, b⟩

theorem HandlerRaises.back {s s1 : LState} {et : Ty} {x : Val} {e : Exc} (he : Ext W C s s1) (h : HandlerRaises W C s1 x et e) :
    HandlerRaises W C s x et e := by
  obtain ⟨s2, s3, a, b⟩ := h; exact ⟨s2, s3, he.trans a, b⟩

theorem coll_loads_of {s s' : LState} (hc : Coh W C s) {k : SeqKind} {v r : Val} {et : Ty} (hk : pick W C (.coll k et) = .ok (collHandler k))
    (h : Loads W C s v (.coll k et) r s') :
    v.isDict = false ∧ ∃ xs ys, pyIter v = some xs ∧ r = .seq k ys ∧ IterOk W C s k et xs [] ys := by
  obtain ⟨n, hh, hp, hr⟩ := (loads_iff hc).1 h
  rw [hk] at hp; cases hp
  have he : Ext W C s (cacheReg W (.coll k et) (collHandler k) s) := cacheReg_ext hk
  cases n with
  | zero => cases hr
  | succ n =>
    simp only [run, step_coll] at hr
    obtain ⟨h1, xs, ys, h2, h3, pre, post, zs, h4, h5, h6, h7, h8⟩ := (post_iterload (hc.ext he)).ok hr
    refine ⟨h1, xs, ys, h2, h3, pre, post, zs, h4, h5.mono (fun _ _ h => h.back he), h6, h7, h8.imp_right ?_⟩
    rintro ⟨x, e, post', a, b, c⟩; exact ⟨x, e, post', a, b.back he, c⟩

theorem coll_loads {s s' : LState} {k : SeqKind} {et : Ty} (hd : C.Usual W (.coll k et)) (hc : Coh W C s) {v r : Val}
    (h : Loads W C s v (.coll k et) r s') :
    v.isDict = false ∧ ∃ xs ys, pyIter v = some xs ∧ r = .seq k ys ∧ IterOk W C s k et xs [] ys := coll_loads_of hc (hd.coll) h

theorem coll_raises {s s' : LState} {k : SeqKind} {et : Ty} (hd : C.Usual W (.coll k et)) (hcc : CalmConditions W C) (hc : Coh W C s) {v : Val} {e : Exc}
    (h : Raises W C s v (.coll k et) e s') : ∃ e', e = loadExc v (.coll k et) none e' ∧
      ((v.isDict = true ∧ e' = mkExc .tlType .dictAsIter v (.coll k et)) ∨
        (pick W C et = .error .value ∧ e' = mkExc .tlType (.noHandler et) v et) ∨
        (v.isDict = false ∧ pyIter v = none ∧ e' = mkExc .tlType (.py .type) v (.coll k et)) ∨
        (v.isDict = false ∧ ∃ xs, pyIter v = some xs ∧ IterErr W C s k et v (.coll k et) xs 0 e')) := by
  rcases (raises_iff hc).1 h with ⟨n, hh, e', hp, hr, rfl⟩ | ⟨c, hp, _⟩
  · rw [hd.coll] at hp; cases hp
    have he : Ext W C s (cacheReg W (.coll k et) (collHandler k) s) := cacheReg_ext (hd.coll)
    cases n with
    | zero => cases hr
    | succ n =>
      simp only [run, step_coll] at hr
      refine ⟨e', rfl, ?_⟩
      rcases (post_iterload (hc.ext he)).err hr with h | ⟨c, h1, h2⟩ | h | ⟨h1, xs, h2, pre, x, post, ys, h3, h4, h5⟩
      · exact Or.inl h
      · have := pick_error_value hcc h1; subst this
        exact Or.inr (Or.inl ⟨h1, by rw [h2]; rfl⟩)
      · exact Or.inr (Or.inr (Or.inl h))
      · refine Or.inr (Or.inr (Or.inr ⟨h1, xs, h2, pre, x, post, ys, h3, h4.mono (fun _ _ h => h.back he), ?_⟩))
        rcases h5 with ⟨a, e1, b, c⟩ | ⟨a, y, b, c⟩
        · exact Or.inl ⟨a, e1, b.back he, c⟩
        · exact Or.inr ⟨a, y, b.back he, c⟩
  · rw [hd.coll] at hp; cases hp

/-! ## C15 -/

/-- **C15** (partial).  A successful load into `List[T]`, `Set[T]`, `FrozenSet[T]`, `Tuple[T, ...]` comes from a non-dictionary
iterable; each element was passed through or accepted by `T`, in order, and the result holds exactly the outcomes — of all the elements,
or of those before an element whose handler raised StopIteration (see the counterexample).  Elements of sets are hashable. -/
theorem C15_elements_partial {s s' : LState} {k : SeqKind} {et : Ty} (hd : C.Usual W (.coll k et)) (hs : Reachable W C s) {v r : Val}
    (h : Loads W C s v (.coll k et) r s') :
    v.isDict = false ∧ ∃ xs pre post ys, pyIter v = some xs ∧ xs = pre ++ post ∧ Zip2 (ElemLoads W C s et) pre ys ∧
      r = .seq k (collect k ys) ∧ (k.isSet = true → ∀ y ∈ ys, W.hash y = true) ∧
      (post = [] ∨ ∃ x post' e, post = x :: post' ∧ HandlerRaises W C s x et e ∧ e.cls = .stopIteration) := by
  obtain ⟨h1, xs, ys, h2, rfl, pre, post, zs, h4, h5, h6, h7, h8⟩ := coll_loads hd hs.coh h
  refine ⟨h1, xs, pre, post, zs, h2, h4, h5, ?_, h7, ?_⟩
  · rw [h6]; unfold collect; simp
  · rcases h8 with h8 | ⟨x, e, post', a, b, c, _⟩
    · exact Or.inl h8
    · exact Or.inr ⟨x, post', e, a, b, c⟩

/-- **C15** When the handler of `T` does not raise StopIteration on the elements of the data (no default handler does, apart from
attrs classes with badly annotated converters and constructors of the user's own classes), the result holds the outcomes of
all the elements in order; lists and tuples have the length of the input. -/
theorem C15_elements {s s' : LState} {k : SeqKind} {et : Ty} (hd : C.Usual W (.coll k et)) (hs : Reachable W C s) {v r : Val}
    (hstop : ∀ xs, pyIter v = some xs → ∀ x ∈ xs, ∀ e, HandlerRaises W C s x et e → e.cls ≠ .stopIteration)
    (h : Loads W C s v (.coll k et) r s') :
    v.isDict = false ∧ ∃ xs ys, pyIter v = some xs ∧ Zip2 (ElemLoads W C s et) xs ys ∧
      r = .seq k (collect k ys) ∧ (k.isSet = true → ∀ y ∈ ys, W.hash y = true) ∧
      (k.isSet = false → ∃ zs, r = .seq k zs ∧ zs.length = xs.length) := by
  obtain ⟨h1, xs, pre, post, ys, h2, h3, h4, h5, h6, h7⟩ := C15_elements_partial hd hs h
  rcases h7 with rfl | ⟨x, post', e, rfl, hr, hst⟩
  · simp only [List.append_nil] at h3
    subst h3
    refine ⟨h1, xs, ys, h2, h4, h5, h6, fun hk => ⟨ys, by rw [h5]; simp [collect, hk], h4.length_eq.symm⟩⟩
  · exact absurd hst (hstop xs h2 x (by rw [h3]; simp) e hr)

/-- **C15** When `T` is a basic type of the configuration, or a union of such types, the result holds the outcomes of all the
elements whatever happens: nothing an element does (a converter or handler of the user raising StopIteration included) ends the
loop early. -/
theorem C15_basic {s s' : LState} {k : SeqKind} {et : Ty} (hd : C.Usual W (.coll k et)) (hs : Reachable W C s)
    (hb : (∃ p, et = .prim p ∧ p ∈ C.basictypes) ∨ ∃ ts, et = .union ts ∧ ∀ t ∈ ts, ∃ p, t = .prim p ∧ p ∈ C.basictypes) {v r : Val}
    (h : Loads W C s v (.coll k et) r s') :
    v.isDict = false ∧ ∃ xs ys, pyIter v = some xs ∧ Zip2 (ElemLoads W C s et) xs ys ∧
      r = .seq k (collect k ys) ∧ (k.isSet = true → ∀ y ∈ ys, W.hash y = true) ∧
      (k.isSet = false → ∃ zs, r = .seq k zs ∧ zs.length = xs.length) := by
  have hb' : usesMap C et = false := by
    rcases hb with ⟨p, rfl, hp⟩ | ⟨ts, rfl, hts⟩
    · simp [usesMap, Config.isBasic, hp]
    · have : ts.all C.isBasic = true := by
        rw [List.all_eq_true]
        intro t ht
        obtain ⟨p, rfl, hp⟩ := hts t ht
        simp [Config.isBasic, hp]
      simp [usesMap, this]
  obtain ⟨h1, xs, ys, h2, rfl, pre, post, zs, h4, h5, h6, h7, h8⟩ := coll_loads hd hs.coh h
  rcases h8 with rfl | ⟨_, _, _, _, _, _, h8⟩
  · simp only [List.append_nil] at h4
    subst h4
    have h6' : ys = collect k zs := by rw [h6]; unfold collect; simp
    refine ⟨h1, xs, zs, h2, h5, by rw [h6'], h7, fun hk => ⟨ys, rfl, by rw [h6']; simp [collect, hk, h5.length_eq]⟩⟩
  · rw [hb'] at h8; cases h8

/-- Hypotheses of C15_basic met: `Set[Union[int, str]]`. -/
example : (∃ p, (Ty.union [.prim .int, .prim .str]) = .prim p ∧ p ∈ Sample.C.basictypes) ∨
    ∃ ts, (Ty.union [.prim .int, .prim .str]) = .union ts ∧ ∀ t ∈ ts, ∃ p, t = .prim p ∧ p ∈ Sample.C.basictypes :=
  Or.inr ⟨_, rfl, by simp; decide⟩
example : ∃ r s', Loads Sample.W Sample.C (fresh []) (.list [.int 1, .str "a", .int 1]) (.coll .set (.union [.prim .int, .prim .str])) r s' :=
  ⟨_, _, 9, rfl⟩

/-- **C15** Dictionaries are always refused, with TypedloadTypeError. -/
theorem C15_dict_refused {s : LState} {k : SeqKind} {et : Ty} (hd : C.Usual W (.coll k et)) (hs : Reachable W C s) (kvs : List (Val × Val)) :
    ∃ e s', Raises W C s (.dict kvs) (.coll k et) e s' ∧ e.cls = .tlType ∧ e.value = .dict kvs ∧ e.ty = some (.coll k et) := by
  refine ⟨_, cacheReg W (.coll k et) (collHandler k) s,
    (raises_iff hs.coh).2 (Or.inl ⟨1, _, mkExc .tlType .dictAsIter (.dict kvs) (.coll k et), hd.coll, ?_, rfl⟩), ?_⟩
  · cases k <;> rfl
  · simp [loadExc, mkExc, ExcClass.isTL]

/-- **C15** Every failure is a TypedloadException; when the data is iterable (and `T` is a supported type) one element is to
blame: all the elements before it were loaded, and if its handler raised a TypedloadException, the trace carries its index. -/
theorem C15_error_index {s s' : LState} {k : SeqKind} {et : Ty} (hd : C.Usual W (.coll k et)) (hcc : CalmConditions W C) (hs : Reachable W C s) {v : Val} {e : Exc}
    (h : Raises W C s v (.coll k et) e s') :
    e.isTL = true ∧
    (v.isDict = false → ∀ h', pick W C et = .ok h' → ∀ xs, pyIter v = some xs →
      ∃ pre x post ys, xs = pre ++ x :: post ∧ Zip2 (ElemLoads W C s et) pre ys ∧
        ((∃ e', HandlerRaises W C s x et e' ∧ (e'.isTL = true →
          e.cls = e'.cls ∧ e.trace = ⟨v, .coll k et, none⟩ :: ⟨v, .coll k et, some (.index pre.length)⟩ :: e'.trace)) ∨
         (k.isSet = true ∧ ∃ y, ElemLoads W C s et x y ∧ W.hash y = false ∧ e.cls = .tlType))) := by
  obtain ⟨e', rfl, hcase⟩ := coll_raises hd hcc hs.coh h
  have helem : ∀ i e1, (elemError v (.coll k et) i e1).isTL = true := by
    intro i e1; unfold elemError
    split
    · simpa
    · split <;> rfl
  have htl : e'.isTL = true := by
    rcases hcase with ⟨_, rfl⟩ | ⟨_, rfl⟩ | ⟨_, _, rfl⟩ | ⟨_, xs, _, pre, x, post, ys, _, _, ⟨_, e1, _, rfl⟩ | ⟨_, y, _, _, rfl⟩⟩
    · rfl
    · rfl
    · rfl
    · exact helem _ _
    · exact helem _ _
  refine ⟨by simp [loadExc, htl], fun hv h' hp xs hx => ?_⟩
  rcases hcase with ⟨h1, _⟩ | ⟨h1, _⟩ | ⟨_, h1, _⟩ | ⟨_, xs', hx', pre, x, post, ys, h1, h2, h3⟩
  · rw [hv] at h1; cases h1
  · rw [hp] at h1; cases h1
  · rw [hx] at h1; cases h1
  · rw [hx] at hx'; cases hx'
    refine ⟨pre, x, post, ys, h1, h2, ?_⟩
    rcases h3 with ⟨_, e1, hr, rfl⟩ | ⟨hk, y, hy, hh, rfl⟩
    · left
      refine ⟨e1, hr, fun h1 => ?_⟩
      simp [loadExc, elemError, h1]
    · right
      exact ⟨hk, y, hy, hh, by simp [loadExc, elemError, mkExc, ExcClass.isTL, ExcClass.isType]⟩

/-- Elements of an iterable are loaded whatever the caches hold. -/
theorem iterElems_complete {k : SeqKind} {et : Ty} {v : Val} {t : Ty} {h : Handler} (hp : pick W C et = .ok h) (xs : List Val) :
    ∀ (i : Nat) (acc : List Val) (s : LState), Coh W C s → aget s.idx et = some h →
    (∀ x ∈ xs, ∀ s1, Ext W C s s1 → ∃ y s2, (PassThrough C et x ∧ y = x ∨ ¬ PassThrough C et x ∧ Loads W C s1 x et y s2) ∧
      (k.isSet = true → W.hash y = true)) →
    ∃ n ys s', iterElems W C (run W C n) h k et v t xs i acc s = .ok ys s' := by
  induction xs with
  | nil => intro i acc s _ _ _; exact ⟨0, acc, s, rfl⟩
  | cons x xs ih =>
    intro i acc s hc hi hall
    obtain ⟨y, s2, hy, hh⟩ := hall x (by simp) s (Ext.refl s)
    have hcoll : ∃ acc', collAdd W k acc y = .ok acc' := by
      unfold collAdd
      cases hk : k.isSet with
      | true => simp [hh hk]
      | false => simp
    obtain ⟨acc', hacc'⟩ := hcoll
    have : ∃ n1 s3, Ext W C s s3 ∧ iterElem C (run W C n1) h et x s = .ok y s3 := by
      rcases hy with ⟨hpt, rfl⟩ | ⟨hpt, hl⟩
      · exact ⟨0, s, Ext.refl s, by rw [iterElem_pass _ _ hpt]; rfl⟩
      · obtain ⟨n1, h', hp', hr⟩ := (loads_iff hc).1 hl
        rw [hp] at hp'; cases hp'
        have hreg : cacheReg W et h s = s := by unfold cacheReg; rw [hi]
        rw [hreg] at hr
        refine ⟨n1, s2, (run_ext (W := W) (C := C) n1 h x et s).ok hr, by rw [iterElem_call _ _ hpt]; exact hr⟩
    obtain ⟨n1, s3, he3, hr⟩ := this
    obtain ⟨n2, ys, s', hrest⟩ := ih (i + 1) acc' s3 (hc.ext he3) (he3.idx_keep _ _ hi)
      (fun x' hx' s1 he1 => hall x' (by simp [hx']) s1 (he3.trans he1))
    refine ⟨max n1 n2, ys, s', ?_⟩
    unfold iterElems
    rw [M.handle_apply]
    have m1 : iterElem C (run W C (max n1 n2)) h et x s = .ok y s3 := by
      rw [← hr]
      exact LeM.iterElem (run_le (Nat.le_max_left n1 n2)) h et x s (by rw [hr]; simp)
    rw [m1]
    dsimp only
    rw [hacc']
    dsimp only
    rw [← hrest]
    exact LeM.iterElems (run_le (Nat.le_max_right n1 n2)) h k et v t xs (i + 1) acc' s3 (by rw [hrest]; simp)

theorem coll_complete {s : LState} (hs : Reachable W C s) {k : SeqKind} {v : Val} {et : Ty} {h : Handler}
    {xs : List Val} (hk : pick W C (.coll k et) = .ok (collHandler k)) (hv : v.isDict = false) (hx : pyIter v = some xs) (hp : pick W C et = .ok h)
    (hall : ∀ x ∈ xs, ∀ s1, Ext W C s s1 → ∃ y s2,
      (PassThrough C et x ∧ y = x ∨ ¬ PassThrough C et x ∧ Loads W C s1 x et y s2) ∧ (k.isSet = true → W.hash y = true)) :
    ∃ r s', Loads W C s v (.coll k et) r s' := by
  have he : Ext W C s (cacheReg W (.coll k et) (collHandler k) s) := cacheReg_ext hk
  have hc := hs.coh.ext he
  have he2 := he.trans (cacheIdx_ext (s := cacheReg W (.coll k et) (collHandler k) s) hp)
  obtain ⟨n, ys, s', hr⟩ := iterElems_complete (k := k) (v := v) (t := .coll k et) hp xs 0 [] _ (hs.coh.ext he2)
    (cacheIdx_idx hc hp) (fun x hx' s1 he1 => hall x hx' s1 (he2.trans he1))
  refine ⟨.seq k ys, s', (loads_iff hs.coh).2 ⟨n + 1, _, hk, ?_⟩⟩
  simp only [run, step_coll, iterload, hv, Bool.false_eq_true, if_false, M.bind_apply, resolve_eq hc, hp, hx, hr]
  rfl

/-- **C15** (completeness). If every element of a non-dictionary iterable is passed through, or accepted by `T` whatever the caches hold, with
hashable outcomes for sets, then the load succeeds. -/
theorem C15_complete {s : LState} {k : SeqKind} {et : Ty} (hd : C.Usual W (.coll k et)) (hs : Reachable W C s) {v : Val} {h : Handler}
    {xs : List Val} (hv : v.isDict = false) (hx : pyIter v = some xs) (hp : pick W C et = .ok h)
    (hall : ∀ x ∈ xs, ∀ s1, Ext W C s s1 → ∃ y s2,
      (PassThrough C et x ∧ y = x ∨ ¬ PassThrough C et x ∧ Loads W C s1 x et y s2) ∧ (k.isSet = true → W.hash y = true)) :
    ∃ r s', Loads W C s v (.coll k et) r s' :=
  coll_complete hs (hd.coll) hv hx hp hall

theorem setAdd_foldl_spec (ys : List Val) : ∀ acc, acc.Pairwise (fun a b => pyEq a b = false) →
    (ys.foldl setAdd acc).Pairwise (fun a b => pyEq a b = false) ∧ (∀ z ∈ ys.foldl setAdd acc, z ∈ acc ∨ z ∈ ys) ∧
    (∀ z ∈ acc, z ∈ ys.foldl setAdd acc) ∧ ∀ y ∈ ys, y ∈ ys.foldl setAdd acc ∨ ∃ z ∈ ys.foldl setAdd acc, pyEq z y = true := by
  induction ys with
  | nil => intro acc ha; exact ⟨ha, fun z hz => Or.inl hz, fun z hz => hz, fun y hy => by cases hy⟩
  | cons x ys ih =>
    intro acc ha
    have hacc : (setAdd acc x).Pairwise (fun a b => pyEq a b = false) := by
      unfold setAdd
      split
      · exact ha
      · rename_i hn
        refine List.pairwise_append.2 ⟨ha, List.pairwise_singleton _ _, ?_⟩
        intro a hA b hB
        simp only [List.mem_singleton] at hB; subst hB
        cases hc : pyEq a b with
        | false => rfl
        | true => exact absurd (List.any_eq_true.2 ⟨a, hA, hc⟩) hn
    obtain ⟨h1, h2, h3, h4⟩ := ih _ hacc
    have hsub : ∀ z ∈ acc, z ∈ setAdd acc x := by
      intro z hz; unfold setAdd; split
      · exact hz
      · simp [hz]
    refine ⟨h1, ?_, fun z hz => h3 z (hsub z hz), ?_⟩
    · intro z hz
      rcases h2 z hz with h | h
      · unfold setAdd at h
        split at h
        · exact Or.inl h
        · rcases List.mem_append.1 h with h | h
          · exact Or.inl h
          · simp only [List.mem_singleton] at h; subst h; simp
      · simp [h]
    · intro y hy
      rcases List.mem_cons.1 hy with rfl | hy
      · by_cases hn : pyIn y acc = true
        · obtain ⟨z, hz, he⟩ := List.any_eq_true.1 hn
          exact Or.inr ⟨z, h3 z (hsub z hz), he⟩
        · left
          refine h3 y ?_
          unfold setAdd; rw [if_neg hn]; simp
      · exact h4 y hy

/-- **C15** Sets hold no two equal elements; every element of the set is what some element of the data became, and everything that the elements of the data
became is in the set, or equal to an element of it. -/
theorem C15_distinct {s s' : LState} {k : SeqKind} {et : Ty} (hd : C.Usual W (.coll k et)) (hs : Reachable W C s) {v r : Val} (hk : k = .set ∨ k = .frozenset)
    (hstop : ∀ xs, pyIter v = some xs → ∀ x ∈ xs, ∀ e, HandlerRaises W C s x et e → e.cls ≠ .stopIteration)
    (h : Loads W C s v (.coll k et) r s') :
    ∃ xs ys zs, pyIter v = some xs ∧ Zip2 (ElemLoads W C s et) xs ys ∧ r = .seq k zs ∧ zs.Pairwise (fun a b => pyEq a b = false) ∧
      (∀ z ∈ zs, z ∈ ys) ∧ ∀ y ∈ ys, y ∈ zs ∨ ∃ z ∈ zs, pyEq z y = true := by
  replace hk : k.isSet = true := by rcases hk with rfl | rfl <;> rfl
  obtain ⟨_, xs, ys, h1, h2, h3, _, _⟩ := C15_elements hd hs hstop h
  obtain ⟨a, b, _, d⟩ := setAdd_foldl_spec ys [] List.Pairwise.nil
  refine ⟨xs, ys, collect k ys, h1, h2, h3, ?_⟩
  unfold collect
  rw [if_pos hk]
  exact ⟨a, fun z hz => (b z hz).resolve_left (by simp), d⟩

/-- `[1, True, 2]` into `Set[int]`: the set has two elements. -/
example : (load Sample.W Sample.C 5 (.list [.int 1, .bool true, .int 2]) (.coll .set (.prim .int)) (fresh [])).val? =
    some (.seq .set [.int 1, .int 2]) := by decide

/-- Witness that StopIteration truncates: `List[B]`, where `B` is an attrs class with a converter annotated with its return
type only, loads a list of two dictionaries as the empty list. -/
theorem C15_truncation_counterexample :
    ∃ s', Loads Sample.W Sample.C (fresh []) (.list [.dict [(.str "u", .int 1)], .dict [(.str "u", .int 2)]])
      (.coll .list (.obj 4)) (.list []) s' := ⟨_, 5, rfl⟩

/-- `List[int]` with a bool, an int and a string: the bool is passed through. -/
example : (load Sample.W Sample.C 5 (.tuple [.bool true, .int 2, .str "5"]) (.coll .list (.prim .int)) (fresh [])).val? =
    some (.list [.bool true, .int 2, .int 5]) := by decide
/-- The index of the offending element. -/
example : ((load Sample.W Sample.C 5 (.tuple [.bool true, .int 2, .str "x"]) (.coll .list (.prim .int)) (fresh [])).err?.map
    (fun e => e.trace.map (·.ann))) = some [none, some (.index 2)] := by decide

/-- Hypotheses of C15_complete and C15_elements met by a list of ints for `Set[int]`. -/
example : ∃ r s', Loads Sample.W Sample.C (fresh []) (.list [.int 1, .bool true, .int 2]) (.coll .set (.prim .int)) r s' := by
  refine C15_complete (C := Sample.C) (h := .basicload) rfl (.new _ _) rfl rfl (pick_basic (show Sample.C.Default from rfl) (by decide) (by decide)) ?_
  intro x hx s1 _
  refine ⟨x, s1, Or.inl ⟨Or.inl ⟨.int, rfl, by decide, ?_⟩, rfl⟩, fun _ => ?_⟩ <;>
  · simp only [List.mem_cons, List.not_mem_nil, or_false] at hx
    rcases hx with rfl | rfl | rfl <;> rfl

example : ∀ xs, pyIter (.list [.int 1, .str "x"]) = some xs → ∀ x ∈ xs, ∀ e,
    HandlerRaises Sample.W Sample.C (fresh []) x (.lit [.int 1]) e → e.cls ≠ .stopIteration := by
  rintro xs _ x _ e ⟨s1, s2, _, n, h, hp, hr⟩
  rw [pick_lit (show Sample.C.Default from rfl)] at hp; cases hp
  cases n with
  | zero => cases hr
  | succ n =>
    simp only [run, step, literalload] at hr
    split at hr
    · cases hr
    · cases hr; simp [mkExc]

/-! ## C16 fixed-size tuples -/

/-- The `i`-th element `x` becomes `y`: kept when it has exactly the basic type required, otherwise `y` is what the handler of
the type produced at some moment. -/
def TupElem (W : World) (C : Config) (s : LState) (x : Val) (u : Ty) (y : Val) : Prop :=
  (C.isBasic u = true ∧ typeOf x = u ∧ y = x) ∨ ∃ s1 s2, Ext W C s s1 ∧ Handles W C s1 x u y s2

/-- `ys` holds an outcome for each type of the tuple. -/
inductive TupElems (W : World) (C : Config) (s : LState) : List Val → List Ty → List Val → Prop
  | nil {xs} : TupElems W C s xs [] []
  | cons {x xs u us y ys} : TupElem W C s x u y → TupElems W C s xs us ys → TupElems W C s (x :: xs) (u :: us) (y :: ys)

theorem TupElems.length {s : LState} {xs : List Val} {us : List Ty} {ys : List Val} (h : TupElems W C s xs us ys) :
    ys.length = us.length := by
  induction h with
  | nil => rfl
  | cons _ _ ih => simp [ih]

theorem presE_tupElem {n : Nat} (x : Val) (u : Ty) :
    PresE W C (do let h ← tupHandler W C u; if C.isBasic u && typeOf x == u then pure x else run W C n h x u : L Val) := by
  refine PresE.bind ?_ (fun h => ?_)
  · intro s
    unfold tupHandler
    simp only [post_bind, post_get]
    split
    · exact Ext.refl s
    · split <;> exact Ext.refl s
  · split
    · exact PresE.pure _
    · exact run_ext n h x u

theorem tupHandler_spec {u : Ty} {s : LState} (hc : Coh W C s) :
    Post (tupHandler W C u) s (fun h s' => s' = s ∧ pick W C u = .ok h) (fun e s' => s' = s ∧ ∃ c, pick W C u = .error c ∧ e = .plain c) := by
  unfold tupHandler
  simp only [post_bind, post_get]
  split
  · rename_i h hi; exact ⟨rfl, hc.idx _ _ hi⟩
  · split
    · rename_i h hp; exact ⟨rfl, hp⟩
    · rename_i c hp; exact ⟨rfl, c, hp, rfl⟩

theorem post_tupElem {n : Nat} {x : Val} {u : Ty} {s0 s : LState} (he : Ext W C s0 s) (hc : Coh W C s) :
    Post (do let h ← tupHandler W C u; if C.isBasic u && typeOf x == u then pure x else run W C n h x u : L Val) s
      (fun y s' => TupElem W C s0 x u y ∧ Ext W C s s')
      (fun e s' => (HandlerRaises W C s0 x u e ∨ ∃ c, pick W C u = .error c ∧ e = .plain c) ∧ Ext W C s s') := by
  have hx := presE_tupElem (W := W) (C := C) (n := n) x u s
  refine Post.and ?_ hx
  rw [post_bind]
  refine (tupHandler_spec hc).mono ?_ (fun _ _ h => Or.inr h.2)
  rintro h s' ⟨rfl, hp⟩
  split
  · rename_i hb
    simp only [Bool.and_eq_true, ty_beq, decide_eq_true_eq] at hb
    exact Or.inl ⟨hb.1, hb.2, rfl⟩
  · unfold Post
    cases hr : run W C n h x u s' with
    | div => trivial
    | err e s'' => exact Or.inl ⟨s', s'', he, n, h, hp, hr⟩
    | ok y s'' => exact Or.inr ⟨s', s'', he, n, h, hp, hr⟩

/-- Position `j` of the tuple failed, the previous ones did not. -/
def TupErr (W : World) (C : Config) (s : LState) (v : Val) (t : Ty) (xs : List Val) (us : List Ty) (i : Nat) (e : Exc) : Prop :=
  ∃ j x u ys e', xs[j]? = some x ∧ us[j]? = some u ∧ TupElems W C s xs (us.take j) ys ∧ e = elemError v t (i + j) e' ∧
    (HandlerRaises W C s x u e' ∨ ∃ c, pick W C u = .error c ∧ e' = .plain c)

theorem post_tupElems {n : Nat} {v : Val} {t : Ty} {s0 : LState} (us : List Ty) : ∀ (xs : List Val) (i : Nat) (s : LState),
    Ext W C s0 s → Coh W C s → us.length ≤ xs.length →
    Post (tupElems W C (run W C n) v t xs us i) s (fun ys _ => TupElems W C s0 xs us ys)
      (fun e _ => TupErr W C s0 v t xs us i e) := by
  induction us with
  | nil => intro xs i s _ _ _; cases xs <;> exact .nil
  | cons u us ih =>
    intro xs i s he hc hlen
    cases xs with
    | nil => simp at hlen
    | cons x xs =>
      unfold tupElems
      rw [post_bind, post_rescue]
      refine (post_tupElem (n := n) (x := x) (u := u) he hc).mono ?_ ?_
      · rintro y s' ⟨hy, he'⟩
        rw [post_bind]
        refine (ih xs (i + 1) s' (he.trans he') (hc.ext he') (by simpa using hlen)).mono ?_ ?_
        · intro ys _ hys; exact .cons hy hys
        · rintro e _ ⟨j, x', u', ys, e', h1, h2, h3, h4, h5⟩
          refine ⟨j + 1, x', u', y :: ys, e', by simpa using h1, by simpa using h2, ?_, ?_, h5⟩
          · simp only [List.take_succ_cons]; exact .cons hy h3
          · rw [h4]; congr 1; omega
      · rintro e s' ⟨hr, _⟩
        exact ⟨0, x, u, [], e, rfl, rfl, by simpa using .nil, rfl, hr⟩

theorem TupElems.back {s s1 : LState} {xs : List Val} {us : List Ty} {ys : List Val} (he : Ext W C s s1)
    (h : TupElems W C s1 xs us ys) : TupElems W C s xs us ys := by
  induction h with
  | nil => exact .nil
  | cons h _ ih =>
    refine .cons ?_ ih
    rcases h with h | ⟨s2, s3, a, b⟩
    · exact Or.inl h
    · exact Or.inr ⟨s2, s3, he.trans a, b⟩

/-- Outcome of the handler of a fixed-size tuple. -/
theorem post_tupleload {n : Nat} {v : Val} {ts : List Ty} {s : LState} (hc : Coh W C s) :
    Post (tupleload W C (run W C n) v (.tuple ts)) s
      (fun r _ => v.isDict = false ∧ ∃ xs ys, pyIter v = some xs ∧ r = .tuple ys ∧ ts.length ≤ xs.length ∧
        (C.failonextra = true → xs.length = ts.length) ∧ TupElems W C s xs ts ys)
      (fun e _ => (v.isDict = true ∧ e = mkExc .tlType .dictAsTuple v (.tuple ts)) ∨
        (v.isDict = false ∧ pyIter v = none ∧ e = .plain .type) ∨
        (v.isDict = false ∧ ∃ xs, pyIter v = some xs ∧
          ((C.failonextra = true ∧ ts.length < xs.length ∧ e = mkExc .tlValue (.tooLong (.tuple ts)) v (.tuple ts)) ∨
           (xs.length < ts.length ∧ e = mkExc .tlValue (.tooShort (.tuple ts)) v (.tuple ts)) ∨
           (ts.length ≤ xs.length ∧ (C.failonextra = true → xs.length = ts.length) ∧ TupErr W C s v (.tuple ts) xs ts 0 e)))) := by
  unfold tupleload
  dsimp only
  cases hv : v.isDict with
  | true => exact Or.inl ⟨rfl, rfl⟩
  | false =>
    simp only [Bool.false_eq_true, if_false]
    cases hi : pyIter v with
    | none => exact Or.inr (Or.inl ⟨trivial, rfl, rfl⟩)
    | some xs =>
      dsimp only
      split
      · rename_i hl
        simp only [Bool.and_eq_true, decide_eq_true_eq] at hl
        exact Or.inr (Or.inr ⟨trivial, xs, rfl, Or.inl ⟨hl.1, hl.2, rfl⟩⟩)
      · rename_i hl
        split
        · rename_i hs
          exact Or.inr (Or.inr ⟨trivial, xs, rfl, Or.inr (Or.inl ⟨hs, rfl⟩)⟩)
        · rename_i hs
          have h1 : ts.length ≤ xs.length := by omega
          have h2 : C.failonextra = true → xs.length = ts.length := by
            intro hf; simp [hf] at hl; omega
          rw [post_bind]
          refine (post_tupElems (n := n) (v := v) (t := .tuple ts) (s0 := s) ts xs 0 s (Ext.refl s) hc h1).mono ?_ ?_
          · intro ys _ hy; exact ⟨trivial, xs, ys, rfl, rfl, h1, h2, hy⟩
          · intro e _ hy; exact Or.inr (Or.inr ⟨trivial, xs, rfl, Or.inr (Or.inr ⟨h1, h2, hy⟩)⟩)

/-- **C16** A successful load into `Tuple[T1, ..., Tn]` comes from a non-dictionary iterable of at least `n` elements (exactly `n` with
`failonextra`) and returns a tuple of exactly `n` elements, the i-th one loaded into `Ti`. -/
theorem C16_tuple {s s' : LState} {ts : List Ty} (hd : C.Usual W (.tuple ts)) (hs : Reachable W C s) {v r : Val}
    (h : Loads W C s v (.tuple ts) r s') :
    v.isDict = false ∧ ∃ xs ys, pyIter v = some xs ∧ r = .tuple ys ∧ ts.length ≤ xs.length ∧
      (C.failonextra = true → xs.length = ts.length) ∧ ys.length = ts.length ∧ TupElems W C s xs ts ys := by
  obtain ⟨n, hh, hp, hr⟩ := (loads_iff hs.coh).1 h
  rw [hd.tuple] at hp; cases hp
  have he : Ext W C s (cacheReg W (.tuple ts) .tupleload s) := cacheReg_ext (hd.tuple)
  cases n with
  | zero => cases hr
  | succ n =>
    obtain ⟨h1, xs, ys, h2, h3, h4, h5, h6⟩ := (post_tupleload (hs.coh.ext he)).ok hr
    exact ⟨h1, xs, ys, h2, h3, h4, h5, h6.length, h6.back he⟩

/-- **C16** A shorter value is always refused with TypedloadValueError; with `failonextra` a longer value is too. -/
theorem C16_length {s : LState} {ts : List Ty} (hd : C.Usual W (.tuple ts)) (hs : Reachable W C s) {v : Val} {xs : List Val}
    (hv : v.isDict = false) (hx : pyIter v = some xs)
    (hlen : xs.length < ts.length ∨ (C.failonextra = true ∧ ts.length < xs.length)) :
    ∃ e s', Raises W C s v (.tuple ts) e s' ∧ e.cls = .tlValue ∧ e.value = v ∧ e.ty = some (.tuple ts) := by
  have hp := hd.tuple
  have : ∃ m, tupleload W C (run W C 0) v (.tuple ts) (cacheReg W (.tuple ts) .tupleload s) =
      .err (mkExc .tlValue m v (.tuple ts)) (cacheReg W (.tuple ts) .tupleload s) := by
    unfold tupleload
    simp only [hv, hx, Bool.false_eq_true, if_false]
    by_cases h1 : C.failonextra = true ∧ ts.length < xs.length
    · rw [if_pos (by simpa using h1)]; exact ⟨_, rfl⟩
    · rw [if_neg (by simpa using h1)]
      rcases hlen with h | h
      · rw [if_pos h]; exact ⟨_, rfl⟩
      · exact absurd h h1
  obtain ⟨m, hm⟩ := this
  refine ⟨_, _, (raises_iff hs.coh).2 (Or.inl ⟨1, _, _, hp, hm, rfl⟩), ?_⟩
  simp [loadExc, mkExc, ExcClass.isTL]

/-- The element loop looks at the first elements only, and at the value itself only to report errors. -/
theorem tupElems_take {rec : Rec} (v v' : Val) (t : Ty) (us : List Ty) : ∀ (xs : List Val) (i : Nat) (s s' : LState) (ys : List Val),
    tupElems W C rec v t xs us i s = .ok ys s' ↔ tupElems W C rec v' t (xs.take us.length) us i s = .ok ys s' := by
  induction us with
  | nil => intro xs i s s' ys; cases xs <;> simp [tupElems]
  | cons u us ih =>
    intro xs i s s' ys
    cases xs with
    | nil => simp [tupElems]
    | cons x xs =>
      simp only [List.length_cons, List.take_succ_cons, tupElems, M.bind_apply, M.catch_apply]
      cases htup : tupHandler W C u s with
      | div => simp
      | err e s1 => simp
      | ok h s1 =>
        dsimp only
        cases (if (C.isBasic u && typeOf x == u) = true then (pure x : L Val) else rec h x u) s1 with
        | div => simp
        | err e s2 => simp
        | ok y s2 =>
          dsimp only
          have := ih xs (i + 1) s2
          cases h1 : tupElems W C rec v t xs us (i + 1) s2 with
          | ok ys1 s3 => rw [(this s3 ys1).1 h1]
          | err e s3 =>
            cases h2 : tupElems W C rec v' t (xs.take us.length) us (i + 1) s2 with
            | ok ys1 s4 => rw [(this s4 ys1).2 h2] at h1; cases h1
            | err => simp
            | div => simp
          | div =>
            cases h2 : tupElems W C rec v' t (xs.take us.length) us (i + 1) s2 with
            | ok ys1 s4 => rw [(this s4 ys1).2 h2] at h1; cases h1
            | err => simp
            | div => simp

/-- **C16** Without `failonextra` the elements beyond the size of the tuple have no influence: the load behaves as on the tuple of
the first `n` elements. -/
theorem C16_tail_ignored {s s' : LState} {ts : List Ty} (hd : C.Usual W (.tuple ts)) (hs : Reachable W C s) (hf : C.failonextra = false)     {v r : Val} {xs : List Val} (hv : v.isDict = false) (hx : pyIter v = some xs) (hlen : ts.length ≤ xs.length) :
    Loads W C s v (.tuple ts) r s' ↔ Loads W C s (.tuple (xs.take ts.length)) (.tuple ts) r s' := by
  have hp := hd.tuple
  rw [loads_iff hs.coh, loads_iff hs.coh]
  have key : ∀ n, run W C n .tupleload v (.tuple ts) (cacheReg W (.tuple ts) .tupleload s) = .ok r s' ↔
      run W C n .tupleload (.tuple (xs.take ts.length)) (.tuple ts) (cacheReg W (.tuple ts) .tupleload s) = .ok r s' := by
    intro n
    cases n with
    | zero => simp [run]
    | succ n =>
      have hl : ¬ xs.length < ts.length := by omega
      have hx' : pyIter (.tuple (xs.take ts.length)) = some (xs.take ts.length) := rfl
      have hv' : (Val.tuple (xs.take ts.length)).isDict = false := rfl
      simp only [run, step, tupleload, hv, hx, hv', hx', hf, Bool.false_eq_true, if_false, Bool.false_and, hl,
        List.length_take, Nat.min_eq_left hlen, Nat.lt_irrefl, M.bind_apply]
      have := tupElems_take (W := W) (C := C) (rec := run W C n) v (.tuple (xs.take ts.length)) (.tuple ts) ts xs 0
        (cacheReg W (.tuple ts) .tupleload s)
      cases h1 : tupElems W C (run W C n) v (.tuple ts) xs ts 0 (cacheReg W (.tuple ts) .tupleload s) with
      | ok ys s1 => rw [(this s1 ys).1 h1]
      | err e s1 =>
        cases h2 : tupElems W C (run W C n) (.tuple (xs.take ts.length)) (.tuple ts) (xs.take ts.length) ts 0
          (cacheReg W (.tuple ts) .tupleload s) with
        | ok ys s2 => rw [(this s2 ys).2 h2] at h1; cases h1
        | err => simp
        | div => simp
      | div =>
        cases h2 : tupElems W C (run W C n) (.tuple (xs.take ts.length)) (.tuple ts) (xs.take ts.length) ts 0
          (cacheReg W (.tuple ts) .tupleload s) with
        | ok ys s2 => rw [(this s2 ys).2 h2] at h1; cases h1
        | err => simp
        | div => simp
  constructor
  · rintro ⟨n, h, hp', hr⟩; rw [hp] at hp'; cases hp'; exact ⟨n, _, hp, (key n).1 hr⟩
  · rintro ⟨n, h, hp', hr⟩; rw [hp] at hp'; cases hp'; exact ⟨n, _, hp, (key n).2 hr⟩

/-- **C16** A value of the right length fails only because of one element, and the trace carries its position. -/
theorem C16_error_index {s s' : LState} {ts : List Ty} (hd : C.Usual W (.tuple ts)) (hs : Reachable W C s) {v : Val} {xs : List Val} {e : Exc}
    (hv : v.isDict = false) (hx : pyIter v = some xs) (hlen : xs.length = ts.length) (h : Raises W C s v (.tuple ts) e s') :
    e.isTL = true ∧ ∃ j x u ys, xs[j]? = some x ∧ ts[j]? = some u ∧ TupElems W C s xs (ts.take j) ys ∧
      ((∃ c, pick W C u = .error c) ∨ ∃ e', HandlerRaises W C s x u e' ∧ (e'.isTL = true →
        e.cls = e'.cls ∧ e.trace = ⟨v, .tuple ts, none⟩ :: ⟨v, .tuple ts, some (.index j)⟩ :: e'.trace)) := by
  rcases (raises_iff hs.coh).1 h with ⟨n, hh, e', hp, hr, rfl⟩ | ⟨c, hp, _⟩
  · rw [hd.tuple] at hp; cases hp
    have he : Ext W C s (cacheReg W (.tuple ts) .tupleload s) := cacheReg_ext (hd.tuple)
    cases n with
    | zero => cases hr
    | succ n =>
      rcases (post_tupleload (hs.coh.ext he)).err hr with ⟨h1, _⟩ | ⟨_, h1, _⟩ | ⟨_, xs', h1, ⟨_, h2, _⟩ | ⟨h2, _⟩ | ⟨_, _, j, x, u, ys, e1, a, b, c, rfl, d⟩⟩
      · rw [hv] at h1; cases h1
      · rw [hx] at h1; cases h1
      · rw [hx] at h1; cases h1; omega
      · rw [hx] at h1; cases h1; omega
      · rw [hx] at h1; cases h1
        refine ⟨?_, j, x, u, ys, a, b, c.back he, ?_⟩
        · have helem : (elemError v (.tuple ts) (0 + j) e1).isTL = true := by
            unfold elemError
            split
            · simpa
            · split <;> rfl
          rw [loadExc, if_pos helem]; simpa using helem
        · rcases d with d | ⟨c, d, _⟩
          · right
            refine ⟨e1, d.back he, fun ht => ?_⟩
            simp [loadExc, elemError, ht]
          · left; exact ⟨c, d⟩
  · rw [hd.tuple] at hp; cases hp

/-- A value without length given to a fixed-size tuple raises AssertionError, not a TypedloadException. -/
theorem C16_no_len_counterexample : ∃ e s', Raises Sample.W Sample.C (fresh []) (.int 5) (.tuple [.prim .int]) e s' ∧
    e.cls = .assertion := ⟨_, _, ⟨2, rfl⟩, rfl⟩

/-- Hypotheses met: `(1, "5", "extra")` loads into `Tuple[int, int]`. -/
example : (load Sample.W Sample.C 5 (.list [.int 1, .str "5", .str "extra"]) (.tuple [.prim .int, .prim .int]) (fresh [])).val? =
    some (.tuple [.int 1, .int 5]) ∧ (load Sample.W { Sample.C with failonextra := true } 5
      (.list [.int 1, .str "5", .str "extra"]) (.tuple [.prim .int, .prim .int]) (fresh [])).err?.map (·.cls) = some .tlValue := by
  decide
/-- The position of the offending element. -/
example : ((load Sample.W Sample.C 5 (.list [.int 1, .str "x"]) (.tuple [.prim .int, .prim .int]) (fresh [])).err?.map
    (fun e => e.trace.map (·.ann))) = some [none, some (.index 1)] := by decide

end TL
