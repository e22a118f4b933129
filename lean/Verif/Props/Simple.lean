import Verif.Lemmas.Pick
import Verif.Sample
/-!
# C26, C27, C28, C33, C34, C35, C36: types loaded by a single handler call

(The statements about dumping these values are in `Props/DumpLoad.lean`.)
-/

namespace TL

variable {W : World} {C : Config}

/-! ## C26 Literal -/

theorem step_lit (rec : Rec) (vs : List Val) (v : Val) (s : LState) : step W C rec .literalload v (.lit vs) s =
    M.lift (if pyIn v vs then .ok v else .error (mkExc .tlValue (.notLiteral (.lit vs)) v (.lit vs))) s := by
  simp only [step, literalload]; split <;> rfl

/-- **C26** Loading into `Literal[vs]` returns `r` iff the value equals (Python `==`) an allowed literal and `r` is the
value itself. -/
theorem C26_literal {s : LState} {vs : List Val} (hd : C.Usual W (.lit vs)) (hs : Reachable W C s) (v r : Val) :
    (∃ s', Loads W C s v (.lit vs) r s') ↔ r = v ∧ ∃ l ∈ vs, pyEq l v = true := by
  rw [leaf_loads hs.coh (hd.lit) (fun rec s => step_lit rec vs v s)]
  unfold pyIn
  by_cases h : vs.any (fun y => pyEq y v) = true
  · rw [if_pos h]; simp at h
    constructor
    · intro h'; cases h'; exact ⟨rfl, h⟩
    · rintro ⟨rfl, _⟩; rfl
  · rw [if_neg h]; simp at h
    constructor
    · intro h'; cases h'
    · rintro ⟨_, l, hl, he⟩; simp [h l hl] at he

/-- **C26** (failure). A value equal to no allowed literal raises TypedloadValueError carrying the value and the type. -/
theorem C26_literal_fails {s : LState} {vs : List Val} (hd : C.Usual W (.lit vs)) (hs : Reachable W C s) (v : Val)
    (h : ∀ l ∈ vs, pyEq l v = false) :
    ∃ e s', Raises W C s v (.lit vs) e s' ∧ e.cls = .tlValue ∧ e.value = v ∧ e.ty = some (.lit vs) := by
  have hn : pyIn v vs = false := by simpa [pyIn] using h
  obtain ⟨s', hr⟩ := (leaf_raises hs.coh (hd.lit) (fun rec s => step_lit rec vs v s) _).2
    ⟨_, by rw [hn]; rfl, rfl⟩
  exact ⟨_, s', hr, by simp [loadExc, mkExc, ExcClass.isTL]⟩

example : Sample.C.Default ∧ Reachable Sample.W Sample.C (fresh []) := ⟨rfl, .new _ _⟩
/-- `1 == True == 1.0` in Python, so `True` is accepted by `Literal[1]` and comes back as `True`. -/
example : (load Sample.W Sample.C 1 (.bool true) (.lit [.str "x", .int 1]) (fresh [])).val? = some (.bool true) := by decide

/-! ## C27 Enum -/

/-- `m` is a member of enum `e` that the value `v` denotes: `v` is the member itself or equals its value, or no member is denoted in this way and `_missing_` of the
class returns `m`. -/
def EnumDenotes (W : World) (e : Nat) (v m : Val) : Prop :=
  ∃ n x, (n, x) ∈ (W.enm e).members ∧ m = .enumv e n ∧
    (v = m ∨ pyEq x v = true ∨ W.missing e v = some n ∧ ∀ n' x', (n', x') ∈ (W.enm e).members → v ≠ .enumv e n' ∧ pyEq x' v = false)

theorem enumCall_denotes {e : Nat} {v m : Val} (h : enumCall W e v = some m) : EnumDenotes W e v m := by
  unfold enumCall at h
  split at h
  · rename_i hm
    simp only [List.mem_map] at hm
    obtain ⟨⟨n, x⟩, hp, hv⟩ := hm
    cases h
    exact ⟨n, x, hp, hv.symm, Or.inl rfl⟩
  · rename_i hm
    split at h
    · rename_i p hf
      cases h
      exact ⟨p.1, p.2, List.mem_of_find?_eq_some hf, rfl, Or.inr (Or.inl (by simpa using List.find?_some hf))⟩
    · rename_i hf
      obtain ⟨n, hn, rfl⟩ := Option.map_eq_some_iff.1 h
      obtain ⟨h1, h2⟩ := Option.filter_eq_some_iff.1 hn
      obtain ⟨p, hp, rfl⟩ := List.mem_map.1 (List.contains_iff_mem.1 h2)
      refine ⟨p.1, p.2, hp, rfl, Or.inr (Or.inr ⟨h1, fun n' x' hp' => ⟨fun hv => hm (List.mem_map.2 ⟨_, hp', hv.symm⟩), ?_⟩⟩)⟩
      simpa using List.find?_eq_none.1 hf _ hp'

theorem post_enumHints {n : Nat} {e : Nat} {v : Val} {s0 : LState} (us : List Ty) : ∀ (es : List Exc) (s : LState),
    Ext W C s0 s → Coh W C s → Post (enumHints W C (run W C n) v e us es) s
      (fun r _ => ∃ u ∈ us, ∃ x s1 s2, Ext W C s0 s1 ∧ Loads W C s1 v u x s2 ∧ EnumDenotes W e x r)
      (fun ex _ => ex.cls = .tlValue ∧ ex.value = v ∧ ex.ty = some (.enum e) ∧ ex.subs.length = es.length + us.length) := by
  induction us with
  | nil => intro es s _ _; simp [enumHints, mkExcSubs]
  | cons u us ih =>
    intro es s he hc
    have hl : ∀ x s', loadWith W C (run W C n) v u (some (.union u)) s = .ok x s' → Loads W C s v u x s' := by
      intro x s' h
      refine ⟨n, ?_⟩
      rw [loadWith_eq hc] at h
      rw [load_eq hc]
      cases hp : pick W C u with
      | error c => simp [hp] at h
      | ok hh => rw [hp] at h; dsimp only at h ⊢; cases hr : run W C n hh v u (cacheReg W u hh s) <;> simp_all
    have hext := PresE.loadWith (W := W) (C := C) (run_ext (W := W) (C := C) n) v u (some (.union u)) s
    unfold enumHints
    rw [post_rescue, post_bind]
    unfold Post
    cases hm : loadWith W C (run W C n) v u (some (.union u)) s with
    | div => trivial
    | err ex s' =>
      have he' := hext.err hm
      refine (ih (es ++ [ex]) s' (he.trans he') (hc.ext he')).mono ?_ ?_
      · rintro r _ ⟨u', hu', rest⟩; exact ⟨u', List.mem_cons_of_mem _ hu', rest⟩
      · rintro x _ ⟨h1, h2, h3, h4⟩; exact ⟨h1, h2, h3, by simp at h4 ⊢; omega⟩
    | ok x s' =>
      have he' := hext.ok hm
      dsimp only
      cases hec : enumCall W e x with
      | some m => exact ⟨u, by simp, x, s, s', he, hl x s' hm, enumCall_denotes hec⟩
      | none =>
        simp only
        change Post (enumHints W C (run W C n) v e us (es ++ [Exc.plain .value])) s' _ _
        refine (ih (es ++ [.plain .value]) s' (he.trans he') (hc.ext he')).mono ?_ ?_
        · rintro r _ ⟨u', hu', rest⟩; exact ⟨u', List.mem_cons_of_mem _ hu', rest⟩
        · rintro x _ ⟨h1, h2, h3, h4⟩; exact ⟨h1, h2, h3, by simp at h4 ⊢; omega⟩

/-- **C27** (soundness). What an Enum load returns is a member of the enum that the value denotes directly, or denoted by the
result of loading the value into one of the types the class is annotated with. -/
theorem C27_enum_sound {s s' : LState} {e : Nat} (hd : C.Usual W (.enum e)) (hs : Reachable W C s) {v r : Val}
    (h : Loads W C s v (.enum e) r s') :
    EnumDenotes W e v r ∨
    ∃ u ∈ (W.enm e).hints, ∃ x s1 s2, Ext W C s s1 ∧ Loads W C s1 v u x s2 ∧ EnumDenotes W e x r := by
  obtain ⟨n, hh, hp, hr⟩ := (loads_iff hs.coh).1 h
  rw [hd.enum] at hp; cases hp
  have he0 : Ext W C s (cacheReg W (.enum e) .enumload s) := cacheReg_ext (hd.enum)
  cases n with
  | zero => cases hr
  | succ n =>
    simp only [run, step, enumload] at hr
    cases hec : enumCall W e v with
    | some m => rw [hec] at hr; simp at hr; left; rw [← hr.1]; exact enumCall_denotes hec
    | none =>
      rw [hec] at hr
      right
      exact (post_enumHints (W.enm e).hints [] _ he0 (hs.coh.ext he0)).ok hr

/-- **C27** (failure). A failing Enum load raises TypedloadValueError with one sub-exception per annotated type, and then the
value denotes no member. -/
theorem C27_enum_fails {s s' : LState} {e : Nat} (hd : C.Usual W (.enum e)) (hs : Reachable W C s) {v : Val} {ex : Exc}
    (h : Raises W C s v (.enum e) ex s') :
    ex.cls = .tlValue ∧ ex.value = v ∧ ex.ty = some (.enum e) ∧ ex.subs.length = (W.enm e).hints.length ∧
    ∀ m, ¬ EnumDenotes W e v m := by
  rcases (raises_iff hs.coh).1 h with ⟨n, hh, e', hp, hr, rfl⟩ | ⟨c, hp, _⟩
  · rw [hd.enum] at hp; cases hp
    have he0 : Ext W C s (cacheReg W (.enum e) .enumload s) := cacheReg_ext (hd.enum)
    cases n with
    | zero => cases hr
    | succ n =>
      simp only [run, step, enumload] at hr
      cases hec : enumCall W e v with
      | some m => rw [hec] at hr; simp at hr
      | none =>
        rw [hec] at hr
        obtain ⟨h1, h2, h3, h4⟩ := (post_enumHints (W.enm e).hints [] _ he0 (hs.coh.ext he0)).err hr
        have htl : e'.isTL = true := by simp [Exc.isTL, h1, ExcClass.isTL]
        obtain ⟨a1, a2, a3, _, a5, _⟩ := loadExc_tl (v := v) (t := .enum e) (a := none) htl
        refine ⟨a1.trans h1, a2.trans h2, a3.trans h3, by rw [a5, h4]; simp, ?_⟩
        rintro m ⟨nm, x, hmem, rfl, hx⟩
        unfold enumCall at hec
        split at hec
        · cases hec
        · rename_i hnm
          split at hec
          · cases hec
          · rename_i hf
            rcases hx with rfl | hx | ⟨hx, _⟩
            · exact hnm (List.mem_map.2 ⟨(nm, x), hmem, rfl⟩)
            · exact absurd hx (by simpa using List.find?_eq_none.1 hf _ hmem)
            · rw [hx, Option.filter_some, List.contains_iff_mem.2 (List.mem_map.2 ⟨_, hmem, rfl⟩)] at hec
              cases hec
  · rw [hd.enum] at hp; cases hp

/-- **C27** (first member). A value that is not itself a member and equals some member's value loads to the first such member;
a member loads to itself. -/
theorem C27_enum_first {s : LState} {e : Nat} (hd : C.Usual W (.enum e)) (hs : Reachable W C s) {v : Val} {i : Nat} {n : String}
    {x : Val} (hi : (W.enm e).members[i]? = some (n, x)) :
    (∃ s', Loads W C s (.enumv e n) (.enum e) (.enumv e n) s') ∧
    (pyEq x v = true → (∀ j < i, ∀ p : String × Val, (W.enm e).members[j]? = some p → pyEq p.2 v = false) →
      (∀ p ∈ (W.enm e).members, v ≠ .enumv e p.1) → ∃ s', Loads W C s v (.enum e) (.enumv e n) s') := by
  have hmem : (n, x) ∈ (W.enm e).members := List.mem_of_getElem? hi
  constructor
  · refine ⟨cacheReg W (.enum e) .enumload s, (loads_iff hs.coh).2 ⟨1, .enumload, hd.enum, ?_⟩⟩
    have : enumCall W e (.enumv e n) = some (.enumv e n) := by
      unfold enumCall; rw [if_pos (List.mem_map.2 ⟨(n, x), hmem, rfl⟩)]
    simp only [run, step, enumload, this]; rfl
  · intro hx hb hne
    refine ⟨cacheReg W (.enum e) .enumload s, (loads_iff hs.coh).2 ⟨1, .enumload, hd.enum, ?_⟩⟩
    have : enumCall W e v = some (.enumv e n) := by
      unfold enumCall
      rw [if_neg (by rw [List.mem_map]; rintro ⟨p, hp, hpv⟩; exact hne p hp hpv.symm)]
      have hf : (W.enm e).members.find? (fun m => pyEq m.2 v) = some (n, x) := by
        rw [List.find?_eq_some_iff_getElem]
        refine ⟨hx, i, (List.getElem?_eq_some_iff.1 hi).1, (List.getElem?_eq_some_iff.1 hi).2, ?_⟩
        intro j hj
        have hjl : j < (W.enm e).members.length := Nat.lt_trans hj (List.getElem?_eq_some_iff.1 hi).1
        have := hb j hj ((W.enm e).members[j]'hjl) (List.getElem?_eq_getElem hjl)
        simpa using this
      rw [hf]
    simp only [run, step, enumload, this]; rfl

/-- With an annotation `x: Tuple[int, int]`, the JSON list `[1, 2]` loads to the member of value `(1, 2)`. -/
example : (load Sample.W Sample.C 5 (.list [.int 1, .int 2]) (.enum 1) (fresh [])).val? = some (.enumv 1 "A") := by decide
example : (load Sample.W Sample.C 5 (.list [.int 1]) (.enum 1) (fresh [])).err?.map (·.subs.length) = some 1 := by decide

/-- **C27** (`_missing_`). A value that is no member and equals no member's value loads to the member that `_missing_` of the class returns. -/
theorem C27_enum_missing {s : LState} {e : Nat} (hd : C.Usual W (.enum e)) (hs : Reachable W C s) {v : Val} {n : String} {x : Val}
    (hno : ∀ p ∈ (W.enm e).members, v ≠ .enumv e p.1 ∧ pyEq p.2 v = false) (hm : W.missing e v = some n) (hn : (n, x) ∈ (W.enm e).members) (r : Val) :
    (∃ s', Loads W C s v (.enum e) r s') ↔ r = .enumv e n := by
  have hc : enumCall W e v = some (.enumv e n) := by
    unfold enumCall
    rw [if_neg (by rw [List.mem_map]; rintro ⟨p, hp, hpv⟩; exact (hno p hp).1 hpv.symm), List.find?_eq_none.2 (fun p hp => by simp [(hno p hp).2])]
    dsimp only
    rw [hm, Option.filter_some, List.contains_iff_mem.2 (List.mem_map.2 ⟨_, hn, rfl⟩)]
    rfl
  rw [leaf_loads hs.coh (hd.enum) (x := .ok (.enumv e n)) (fun rec s => by simp only [step, enumload, hc]; rfl)]
  simp [eq_comm]

/-- The sample program, where `E._missing_` turns `"x"` into `E.B`, and `F._missing_` returns nothing useful. -/
def Sample.WM : World := { Sample.W with missing := fun e v => if e = 0 ∧ v = .str "x" then some "B" else some "Z" }

example : ∃ r s', Loads Sample.WM Sample.C (fresh []) (.str "x") (.enum 0) r s' := ⟨_, _, 9, rfl⟩
example (r : Val) : (∃ s', Loads Sample.WM Sample.C (fresh []) (.str "x") (.enum 0) r s') ↔ r = .enumv 0 "B" :=
  C27_enum_missing (x := .str "b") (Config.Default.usual (C := Sample.C) rfl) (.new (some []) []) (by intro p hp; simp [Sample.WM, Sample.W, Sample.enm] at hp; rcases hp with rfl | rfl <;> decide)
    (by decide) (by decide) r
example : (load Sample.WM Sample.C 5 (.list [.int 1]) (.enum 1) (fresh [])).err?.map (·.subs.length) = some 1 := by decide

/-! ## C28 Any, NewType, None -/

/-- **C28** (Any). `load(v, Any)` is `v`. -/
theorem C28_any {s : LState} (hd : C.Usual W .any) (hs : Reachable W C s) (v r : Val) :
    (∃ s', Loads W C s v .any r s') ↔ r = v := by
  rw [leaf_loads hs.coh (hd.any) (x := .ok v) (fun _ _ => rfl)]; simp [eq_comm]

/-- **C28** (None). `load(v, None)` succeeds iff `v` is None, and then returns None; otherwise TypedloadValueError. -/
theorem C28_none {s : LState} (hd : C.Usual W (.prim .none)) (hs : Reachable W C s) (v r : Val) :
    ((∃ s', Loads W C s v (.prim .none) r s') ↔ v = .none ∧ r = .none) ∧
    (v ≠ .none → ∃ e s', Raises W C s v (.prim .none) e s' ∧ e.cls = .tlValue ∧ e.value = v) := by
  have hx : ∀ (rec : Rec) s, step W C rec .noneload v (.prim .none) s =
      M.lift (if v = .none then .ok .none else .error (mkExc .tlValue .notNone v (.prim .none))) s := by
    intro rec s; simp only [step, noneload]; split <;> rfl
  constructor
  · rw [leaf_loads hs.coh (hd.none) hx]
    by_cases h : v = .none
    · simp [h, eq_comm]
    · simp [h]
  · intro h
    obtain ⟨s', hr⟩ := (leaf_raises hs.coh (hd.none) hx _).2 ⟨_, by rw [if_neg h], rfl⟩
    exact ⟨_, s', hr, by simp [loadExc, mkExc, ExcClass.isTL]⟩

/-- **C28** (NewType). Loading into `NewType(n, T)` is loading into `T` on the loader that has looked up the NewType: same
result, same final state; and an exception has the same class, value and type. -/
theorem C28_newtype {s : LState} {nm : String} {t : Ty} (hd : C.Usual W (.newtype nm t)) (hcc : CalmConditions W C) (hs : Reachable W C s) (v : Val) :
    ∃ s0, Ext W C s s0 ∧
      (∀ r s', Loads W C s v (.newtype nm t) r s' ↔ Loads W C s0 v t r s') ∧
      (∀ e s', Raises W C s v (.newtype nm t) e s' → ∃ e', Raises W C s0 v t e' s' ∧ e.cls = e'.cls ∧
        (e'.isTL = true → e.value = e'.value ∧ e.ty = e'.ty ∧ e.msg = e'.msg)) ∧
      (∀ e' s', Raises W C s0 v t e' s' → ∃ e, Raises W C s v (.newtype nm t) e s') := by
  have hk := hd.newtype
  have he0 : Ext W C s (cacheReg W (.newtype nm t) .newtypeload s) := cacheReg_ext hk
  have hstep : ∀ m, run W C (m + 1) .newtypeload v (.newtype nm t) (cacheReg W (.newtype nm t) .newtypeload s) =
      load W C m v t (cacheReg W (.newtype nm t) .newtypeload s) := fun m => rfl
  refine ⟨_, he0, ?_, ?_, ?_⟩
  · intro r s'
    rw [loads_iff hs.coh]
    constructor
    · rintro ⟨m, h, hk', hr⟩
      rw [hk] at hk'; cases hk'
      cases m with
      | zero => cases hr
      | succ m => rw [hstep] at hr; exact ⟨m, hr⟩
    · rintro ⟨m, hr⟩; exact ⟨m + 1, _, hk, by rw [hstep]; exact hr⟩
  · intro e s' h
    rcases (raises_iff hs.coh).1 h with ⟨m, h, e', hk', hr, rfl⟩ | ⟨c, hk', _⟩
    · rw [hk] at hk'; cases hk'
      cases m with
      | zero => cases hr
      | succ m =>
        rw [hstep] at hr
        have hra : Raises W C (cacheReg W (.newtype nm t) .newtypeload s) v t e' s' := ⟨m, hr⟩
        refine ⟨e', hra, ?_, fun htl => ⟨(loadExc_tl htl).2.1, (loadExc_tl htl).2.2.1, (loadExc_tl htl).2.2.2.1⟩⟩
        rcases (raises_iff (hs.coh.ext he0)).1 hra with ⟨_, _, e2, _, _, rfl⟩ | ⟨c, hp, rfl, _⟩
        · unfold loadExc; cases h2 : e2.isTL <;> simp [h2, ExcClass.isTL]
        · have := pick_error_value hcc hp; subst this
          simp [lookupExc, ExcClass.isValue, loadExc, mkExc, ExcClass.isTL]
    · rw [hk] at hk'; cases hk'
  · rintro e' s' ⟨m, hr⟩
    exact ⟨_, (raises_iff hs.coh).2 (Or.inl ⟨m + 1, _, e', hk, by rw [hstep]; exact hr, rfl⟩)⟩

example : (load Sample.W Sample.C 3 (.str "5") (.newtype "UserId" (.prim .int)) (fresh [])).val? = some (.int 5) := by decide

/-! ## C33 Dates -/

/-- The Gregorian calendar: days of the months of year `y`. -/
def monthLengths (y : Int) : List Int :=
  [31, if (4 ∣ y ∧ ¬ 100 ∣ y) ∨ 400 ∣ y then 29 else 28, 31, 30, 31, 30, 31, 31, 30, 31, 30, 31]
/-- A valid date between the years 1 and 9999. -/
def IsDate (y m d : Int) : Prop :=
  1 ≤ y ∧ y ≤ 9999 ∧ 1 ≤ m ∧ 1 ≤ d ∧ ∃ len, (monthLengths y)[(m - 1).toNat]? = some len ∧ d ≤ len
/-- A valid time of the day. -/
def IsTime (h mi s us : Int) : Prop :=
  (0 ≤ h ∧ h < 24) ∧ (0 ≤ mi ∧ mi < 60) ∧ (0 ≤ s ∧ s < 60) ∧ (0 ≤ us ∧ us < 1000000)

theorem validDate_iff (y m d : Int) : validDate y m d = true ↔ IsDate y m d := by
  have hleap : isLeap y = true ↔ ((4 ∣ y ∧ ¬ 100 ∣ y) ∨ 400 ∣ y) := by
    simp only [isLeap, Bool.or_eq_true, Bool.and_eq_true, beq_iff_eq, bne_iff_ne]; omega
  unfold IsDate validDate daysInMonth
  simp only [Bool.and_eq_true, decide_eq_true_eq]
  by_cases hm : 1 ≤ m ∧ m ≤ 12
  · obtain ⟨h1, h2⟩ := hm
    have : m = 1 ∨ m = 2 ∨ m = 3 ∨ m = 4 ∨ m = 5 ∨ m = 6 ∨ m = 7 ∨ m = 8 ∨ m = 9 ∨ m = 10 ∨ m = 11 ∨ m = 12 := by omega
    rcases this with rfl | rfl | rfl | rfl | rfl | rfl | rfl | rfl | rfl | rfl | rfl | rfl
    case inr.inl =>
      by_cases hl : (4 ∣ y ∧ ¬ 100 ∣ y) ∨ 400 ∣ y
      · have := hleap.2 hl; simp [monthLengths, this, hl]; omega
      · have : isLeap y = false := by cases h : isLeap y <;> simp_all
        simp [monthLengths, this, hl]; omega
    all_goals simp [monthLengths]; omega
  · constructor
    · rintro ⟨⟨⟨⟨_, h3⟩, h4⟩, _⟩, _⟩; exact absurd ⟨h3, h4⟩ hm
    · rintro ⟨_, _, h3, _, len, hlen, _⟩
      have hlt : (m - 1).toNat < 12 := by
        have := (List.getElem?_eq_some_iff.1 hlen).1; simpa [monthLengths] using this
      exact absurd ⟨h3, by omega⟩ hm

theorem validTime_iff (h mi s us : Int) : validTime h mi s us = true ↔ IsTime h mi s us := by
  unfold IsTime validTime
  simp only [Bool.and_eq_true, decide_eq_true_eq]; omega

theorem step_dt (rec : Rec) (k : DtKind) (v : Val) (s : LState) : step W C rec .datetimeload v (.dt k) s =
    M.lift (match dtParse W k v with
      | .ok x => .ok x
      | .error e => .error (if e.isType then mkExc .tlType (.py e) v (.dt k)
          else if e.isValue then mkExc .tlValue (.py e) v (.dt k) else .plain e)) s := by
  simp only [step, datetimeload]
  cases dtParse W k v with
  | ok x => rfl
  | error e => dsimp only; (repeat' split) <;> rfl

theorem loads_dt {s : LState} {k : DtKind} (hd : C.Usual W (.dt k)) (hs : Reachable W C s) (v r : Val) :
    (∃ s', Loads W C s v (.dt k) r s') ↔ dtParse W k v = .ok r := by
  rw [leaf_loads hs.coh (hd.dt) (fun rec s => step_dt rec k v s)]
  cases dtParse W k v <;> simp

/-- An int, or the int value of a bool, in the range of a C int. -/
def CIntOf (v : Val) (i : Int) : Prop := (v = .int i ∧ -2147483648 ≤ i ∧ i ≤ 2147483647) ∨ (v = .bool false ∧ i = 0) ∨ (v = .bool true ∧ i = 1)

theorem toCInt_ok {v : Val} {i : Int} : toCInt v = .ok i ↔ CIntOf v i := by
  unfold toCInt CIntOf
  cases v with
  | int j =>
    simp only
    by_cases h : -2147483648 ≤ j ∧ j ≤ 2147483647
    · simp only [h, and_self, if_true]
      constructor
      · intro e; cases e; simp [h]
      · rintro (⟨e, _⟩ | ⟨e, _⟩ | ⟨e, _⟩) <;> cases e; rfl
    · simp only [h, if_false]
      constructor
      · intro e; cases e
      · rintro (⟨e, h'⟩ | ⟨e, _⟩ | ⟨e, _⟩) <;> cases e; exact absurd h' h
  | bool b => cases b <;> simp [eq_comm]
  | _ => simp

theorem toCInts_ok {vs : List Val} : ∀ {is : List Int}, toCInts vs = .ok is ↔ Zip2 CIntOf vs is := by
  induction vs with
  | nil =>
    intro is
    constructor
    · intro h; cases h; exact .nil
    · intro h; cases h; rfl
  | cons v vs ih =>
    intro is
    unfold toCInts
    cases h1 : toCInt v with
    | error e =>
      simp only [reduceCtorEq, false_iff]
      intro h; cases h with
      | cons h h' => rw [← toCInt_ok] at h; rw [h1] at h; cases h
    | ok i =>
      cases h2 : toCInts vs with
      | error e =>
        simp only [reduceCtorEq, false_iff]
        intro h; cases h with
        | cons h h' => rw [← ih] at h'; rw [h2] at h'; cases h'
      | ok js =>
        simp only [Except.ok.injEq]
        constructor
        · rintro rfl; exact .cons (toCInt_ok.1 h1) (ih.1 h2)
        · intro h; cases h with
          | cons h h' =>
            rw [← toCInt_ok] at h; rw [h1] at h; cases h
            rw [← ih] at h'; rw [h2] at h'; cases h'; rfl

/-- **C33** (dates). A value that is not a string loads into `date` to `r` iff iterating over it gives three ints that form a valid
date, which is `r`. -/
theorem C33_date {s : LState} (hd : C.Usual W (.dt .date)) (hs : Reachable W C s) (v r : Val) (hv : ∀ x, v ≠ .str x) :
    (∃ s', Loads W C s v (.dt .date) r s') ↔
      ∃ xs y m d, pyIter v = some xs ∧ Zip2 CIntOf xs [y, m, d] ∧ IsDate y m d ∧ r = .date y m d := by
  rw [loads_dt hd hs]
  have hp : dtParse W .date v = match pyIter v with
      | some xs => dtCall .date xs
      | none => .error .type := by
    unfold dtParse; cases v <;> first | rfl | exact absurd rfl (hv _)
  rw [hp]
  cases hi : pyIter v with
  | none => simp
  | some xs =>
    dsimp only
    unfold dtCall
    dsimp only
    constructor
    · intro h
      split at h
      · cases h
      · split at h
        · cases h
        · rename_i y m d hc
          split at h
          · rename_i hvd; cases h; exact ⟨xs, y, m, d, rfl, toCInts_ok.1 hc, (validDate_iff _ _ _).1 hvd, rfl⟩
          · cases h
        · cases h
    · rintro ⟨xs', y, m, d, hxs, hf, hvd, rfl⟩
      cases hxs
      have hl := hf.length_eq
      simp only [List.length_cons, List.length_nil] at hl
      rw [if_neg (by simp [hl]), toCInts_ok.2 hf]
      simp [(validDate_iff _ _ _).2 hvd]

/-- **C33** (times). The same for `time`: up to four ints, missing ones are zero. -/
theorem C33_time {s : LState} (hd : C.Usual W (.dt .time)) (hs : Reachable W C s) (v r : Val) (hv : ∀ x, v ≠ .str x) :
    (∃ s', Loads W C s v (.dt .time) r s') ↔
      ∃ xs is h mi sec us k, pyIter v = some xs ∧ Zip2 CIntOf xs is ∧ is ++ List.replicate k 0 = [h, mi, sec, us] ∧
        IsTime h mi sec us ∧ r = .time h mi sec us none := by
  rw [loads_dt hd hs]
  have hp : dtParse W .time v = match pyIter v with
      | some xs => dtCall .time xs
      | none => .error .type := by
    unfold dtParse; cases v <;> first | rfl | exact absurd rfl (hv _)
  rw [hp]
  cases hi : pyIter v with
  | none => simp
  | some xs =>
    dsimp only
    unfold dtCall
    dsimp only
    constructor
    · intro h
      split at h
      · cases h
      · rename_i hlen
        split at h
        · cases h
        · rename_i is hc
          have hf := toCInts_ok.1 hc
          have hl := hf.length_eq
          split at h
          · rename_i hvd; cases h
            refine ⟨xs, is, _, _, _, _, 4 - is.length, rfl, hf, ?_, (validTime_iff _ _ _ _).1 hvd, rfl⟩
            match is, hl with
            | [], _ => rfl
            | [_], _ => rfl
            | [_, _], _ => rfl
            | [_, _, _], _ => rfl
            | [_, _, _, _], _ => rfl
            | _ :: _ :: _ :: _ :: _ :: _, hl => simp at hl; omega
          · cases h
    · rintro ⟨xs', is, h, mi, sec, us, k, hxs, hf, hk, hvd, rfl⟩
      cases hxs
      have hl := hf.length_eq
      have hlen : is.length + k = 4 := by have := congrArg List.length hk; simpa using this
      rw [if_neg (by omega), toCInts_ok.2 hf]
      match is, hk, hl, hlen with
      | [], hk, _, hlen =>
        have : k = 4 := by simpa using hlen
        subst this; simp [List.replicate] at hk; obtain ⟨rfl, rfl, rfl, rfl⟩ := hk
        simp [(validTime_iff _ _ _ _).2 hvd]
      | [a], hk, _, hlen =>
        have : k = 3 := by simp at hlen; omega
        subst this; simp [List.replicate] at hk; obtain ⟨rfl, rfl, rfl, rfl⟩ := hk
        simp [(validTime_iff _ _ _ _).2 hvd]
      | [a, b], hk, _, hlen =>
        have : k = 2 := by simp at hlen; omega
        subst this; simp [List.replicate] at hk; obtain ⟨rfl, rfl, rfl, rfl⟩ := hk
        simp [(validTime_iff _ _ _ _).2 hvd]
      | [a, b, c], hk, _, hlen =>
        have : k = 1 := by simp at hlen; omega
        subst this; simp [List.replicate] at hk; obtain ⟨rfl, rfl, rfl, rfl⟩ := hk
        simp [(validTime_iff _ _ _ _).2 hvd]
      | [a, b, c, d], hk, _, hlen =>
        have : k = 0 := by simp at hlen; omega
        subst this; simp at hk; obtain ⟨rfl, rfl, rfl, rfl⟩ := hk
        simp [(validTime_iff _ _ _ _).2 hvd]
      | _ :: _ :: _ :: _ :: _ :: _, _, _, hlen => simp at hlen; omega

/-- **C33** (datetimes). The same for `datetime`: three to seven ints, missing ones are zero. -/
theorem C33_datetime {s : LState} (hd : C.Usual W (.dt .datetime)) (hs : Reachable W C s) (v r : Val) (hv : ∀ x, v ≠ .str x) :
    (∃ s', Loads W C s v (.dt .datetime) r s') ↔
      ∃ xs is y m d h mi sec us k, pyIter v = some xs ∧ Zip2 CIntOf xs is ∧ k ≤ 4 ∧
        is ++ List.replicate k 0 = [y, m, d, h, mi, sec, us] ∧
        IsDate y m d ∧ IsTime h mi sec us ∧ r = .datetime y m d h mi sec us none := by
  rw [loads_dt hd hs]
  have hp : dtParse W .datetime v = match pyIter v with
      | some xs => dtCall .datetime xs
      | none => .error .type := by
    unfold dtParse; cases v <;> first | rfl | exact absurd rfl (hv _)
  rw [hp]
  cases hi : pyIter v with
  | none => simp
  | some xs =>
    dsimp only
    unfold dtCall
    dsimp only
    constructor
    · intro h
      split at h
      · cases h
      · rename_i hlen
        split at h
        · cases h
        · rename_i is hc
          have hf := toCInts_ok.1 hc
          have hl := hf.length_eq
          split at h
          · rename_i hvd; cases h
            simp only [Bool.and_eq_true] at hvd
            refine ⟨xs, is, _, _, _, _, _, _, _, 7 - is.length, rfl, hf, by omega, ?_, (validDate_iff _ _ _).1 hvd.1,
              (validTime_iff _ _ _ _).1 hvd.2, rfl⟩
            match is, hl with
            | [], hl => simp only [List.length_nil, List.length_cons] at hl; omega
            | [_], hl => simp only [List.length_nil, List.length_cons] at hl; omega
            | [_, _], hl => simp only [List.length_nil, List.length_cons] at hl; omega
            | [_, _, _], _ => rfl
            | [_, _, _, _], _ => rfl
            | [_, _, _, _, _], _ => rfl
            | [_, _, _, _, _, _], _ => rfl
            | [_, _, _, _, _, _, _], _ => rfl
            | _ :: _ :: _ :: _ :: _ :: _ :: _ :: _ :: _, hl => simp at hl; omega
          · cases h
    · rintro ⟨xs', is, y, m, d, h, mi, sec, us, k, hxs, hf, hk4, hk, hvd, hvt, rfl⟩
      cases hxs
      have hl := hf.length_eq
      have hlen : is.length + k = 7 := by have := congrArg List.length hk; simpa using this
      rw [if_neg (by omega), toCInts_ok.2 hf]
      have h1 := (validDate_iff _ _ _).2 hvd
      have h2 := (validTime_iff _ _ _ _).2 hvt
      match is, hk, hl, hlen with
      | [], hk, _, hlen => simp at hlen; omega
      | [_], hk, _, hlen => simp at hlen; omega
      | [_, _], hk, _, hlen => simp at hlen; omega
      | [a, b, c], hk, _, hlen =>
        have : k = 4 := by simp at hlen; omega
        subst this; simp [List.replicate] at hk; obtain ⟨rfl, rfl, rfl, rfl, rfl, rfl, rfl⟩ := hk
        simp [h1, h2]
      | [a, b, c, d], hk, _, hlen =>
        have : k = 3 := by simp at hlen; omega
        subst this; simp [List.replicate] at hk; obtain ⟨rfl, rfl, rfl, rfl, rfl, rfl, rfl⟩ := hk
        simp [h1, h2]
      | [a, b, c, d, e], hk, _, hlen =>
        have : k = 2 := by simp at hlen; omega
        subst this; simp [List.replicate] at hk; obtain ⟨rfl, rfl, rfl, rfl, rfl, rfl, rfl⟩ := hk
        simp [h1, h2]
      | [a, b, c, d, e, f], hk, _, hlen =>
        have : k = 1 := by simp at hlen; omega
        subst this; simp [List.replicate] at hk; obtain ⟨rfl, rfl, rfl, rfl, rfl, rfl, rfl⟩ := hk
        simp [h1, h2]
      | [a, b, c, d, e, f, g], hk, _, hlen =>
        have : k = 0 := by simp at hlen; omega
        subst this; simp at hk; obtain ⟨rfl, rfl, rfl, rfl, rfl, rfl, rfl⟩ := hk
        simp [h1, h2]
      | _ :: _ :: _ :: _ :: _ :: _ :: _ :: _ :: _, _, _, hlen => simp at hlen; omega

/-- **C33** (refusals). A date, time or datetime load always terminates, and a failure is reported as TypedloadTypeError,
TypedloadValueError or, if parsing overflows, AssertionError. -/
theorem C33_refuses {s : LState} {k : DtKind} (hd : C.Usual W (.dt k)) (hs : Reachable W C s) (v : Val) :
    (∃ r s', Loads W C s v (.dt k) r s') ∨
    ∃ e s', Raises W C s v (.dt k) e s' ∧ (e.cls = .tlType ∨ e.cls = .tlValue ∨
      (∃ c, dtParse W k v = .error c ∧ c.isType = false ∧ c.isValue = false ∧ (c.isTL = false → e.cls = .assertion))) := by
  cases hp : dtParse W k v with
  | ok r => left; obtain ⟨s', h⟩ := (loads_dt hd hs v r).2 hp; exact ⟨r, s', h⟩
  | error c =>
    right
    obtain ⟨s', hr⟩ := (leaf_raises hs.coh (hd.dt) (fun rec s => step_dt rec k v s) _).2 ⟨_, by rw [hp], rfl⟩
    refine ⟨_, s', hr, ?_⟩
    cases h1 : c.isType with
    | true => left; simp [loadExc, mkExc, ExcClass.isTL]
    | false =>
      cases h2 : c.isValue with
      | true => right; left; simp [loadExc, mkExc, ExcClass.isTL]
      | false =>
        right; right
        exact ⟨c, rfl, h1, h2, fun htl => by simp [loadExc, htl]⟩

/-- A defect: an int that does not fit a C int is not refused with a TypedloadException. -/
theorem C33_overflow_counterexample {s : LState} (hd : C.Usual W (.dt .date)) (hs : Reachable W C s) :
    ∃ e s', Raises W C s (.list [.int 3000000000, .int 1, .int 1]) (.dt .date) e s' ∧ e.isTL = false := by
  obtain ⟨s', hr⟩ := (leaf_raises hs.coh (hd.dt)
    (fun rec s => step_dt rec .date (.list [.int 3000000000, .int 1, .int 1]) s) _).2 ⟨_, rfl, rfl⟩
  exact ⟨_, s', hr, rfl⟩

example : IsDate 2024 2 29 ∧ ¬ IsDate 1900 2 29 := by
  constructor
  · rw [← validDate_iff]; decide
  · rw [← validDate_iff]; decide
example : IsTime 23 59 59 999999 ∧ ¬ IsTime 24 0 0 0 := by constructor <;> (unfold IsTime; omega)
example : Zip2 CIntOf [.int 2024, .int 2, .int 29] [2024, 2, 29] := by
  refine .cons ?_ (.cons ?_ (.cons ?_ .nil)) <;> left <;> simp

/-! ## C34 Timedelta -/

theorem step_td (rec : Rec) (v : Val) (s : LState) : step W C rec .timedeltaload v .timedelta s =
    M.lift (match tdSeconds W v with
      | .ok x => .ok x
      | .error e => .error (if e.isType then mkExc .tlType (.py e) v .timedelta else .plain e)) s := by
  simp only [step, timedeltaload]
  cases tdSeconds W v with
  | ok x => rfl
  | error e => dsimp only; split <;> rfl

/-- **C34** A timedelta loaded from the int `n` is exactly `n` seconds, and exists iff its number of days is at most 999999999 in
magnitude; other ints are refused. -/
theorem C34_int {s : LState} (hd : C.Usual W .timedelta) (hs : Reachable W C s) (n : Int) :
    (∀ r, (∃ s', Loads W C s (.int n) .timedelta r s') ↔
      r = .timedelta (n * 1000000) ∧ -999999999 * 86400 ≤ n ∧ n < 1000000000 * 86400) ∧
    ((n < -999999999 * 86400 ∨ 1000000000 * 86400 ≤ n) → ∃ e s', Raises W C s (.int n) .timedelta e s') := by
  have hv : validTimedelta (n * 1000000) = true ↔ -999999999 * 86400 ≤ n ∧ n < 1000000000 * 86400 := by
    unfold validTimedelta; simp only [Bool.and_eq_true, decide_eq_true_eq]; omega
  constructor
  · intro r
    rw [leaf_loads hs.coh (hd.timedelta) (fun rec s => step_td rec (.int n) s)]
    simp only [tdSeconds]
    by_cases h : validTimedelta (n * 1000000) = true
    · rw [if_pos h]
      constructor
      · intro h'; cases h'; exact ⟨rfl, hv.1 h⟩
      · rintro ⟨rfl, _⟩; rfl
    · simp only [h]
      constructor
      · intro h'; simp at h'
      · rintro ⟨_, h'⟩; exact absurd (hv.2 h') h
  · intro hr
    have h : validTimedelta (n * 1000000) = false := by
      cases h : validTimedelta (n * 1000000) with
      | false => rfl
      | true => have := hv.1 h; omega
    obtain ⟨s', hr⟩ := (leaf_raises hs.coh (hd.timedelta) (fun rec s => step_td rec (.int n) s) _).2
      ⟨_, by simp only [tdSeconds, h]; rfl, rfl⟩
    exact ⟨_, s', hr⟩

/-- **C34** (other values). Values that are not numbers raise TypedloadTypeError; True and False are 1 and 0 seconds. -/
theorem C34_other {s : LState} (hd : C.Usual W .timedelta) (hs : Reachable W C s) (v : Val) :
    (numKey v = none → ∃ e s', Raises W C s v .timedelta e s' ∧ e.cls = .tlType ∧ e.value = v) ∧
    (∀ b, v = .bool b → ∃ s', Loads W C s v .timedelta (.timedelta (if b then 1000000 else 0)) s') := by
  constructor
  · intro hn
    have ht : tdSeconds W v = .error .type := by
      cases v <;> first | rfl | simp [numKey] at hn
    obtain ⟨s', hr⟩ := (leaf_raises hs.coh (hd.timedelta) (fun rec s => step_td rec v s) _).2
      ⟨_, by rw [ht], rfl⟩
    exact ⟨_, s', hr, by simp [loadExc, mkExc, ExcClass.isTL, ExcClass.isType]⟩
  · rintro b rfl
    exact (leaf_loads hs.coh (hd.timedelta) (fun rec s => step_td rec (.bool b) s) _).2 rfl

/-- A defect: an out-of-range int is refused with AssertionError, not with a TypedloadException. -/
theorem C34_overflow_counterexample {s : LState} (hd : C.Usual W .timedelta) (hs : Reachable W C s) :
    ∃ e s', Raises W C s (.int 86400000000000) .timedelta e s' ∧ e.isTL = false := by
  obtain ⟨s', hr⟩ := (leaf_raises hs.coh (hd.timedelta) (fun rec s => step_td rec (.int 86400000000000) s) _).2
    ⟨_, rfl, rfl⟩
  exact ⟨_, s', hr, rfl⟩

/-! ## C35 Patterns -/

theorem step_pat (rec : Rec) (a : Option Prim) (v : Val) (s : LState) : step W C rec .patternload v (.pattern a) s =
    M.lift (match patCompile W v with
      | .ok x => .ok x
      | .error e => .error (if e = .reError then mkExc .tlBase (.py e) v (.pattern a)
          else if e.isType then mkExc .tlType (.py e) v (.pattern a) else .plain e)) s := by
  simp only [step, patternload]
  cases patCompile W v with
  | ok x => rfl
  | error e => dsimp only; (repeat' split) <;> rfl

/-- **C35** (partial). Loading `v` into `Pattern`, `Pattern[str]` or `Pattern[bytes]` returns `r` iff `v` is a str or bytes that
compiles and `r` is the pattern with source `v`, or `v` is already a pattern and `r` is `v`.
Missing: the parameter of `Pattern` is not enforced by the code (see `C35_parameter_counterexample`). -/
theorem C35_pattern_partial {s : LState} {a : Option Prim} (hd : C.Usual W (.pattern a)) (hs : Reachable W C s) (v r : Val) :
    (∃ s', Loads W C s v (.pattern a) r s') ↔
      (((∃ x, v = .str x) ∨ (∃ x, v = .bytes x)) ∧ W.reCompile v = .ok () ∧ r = .pattern v) ∨
      ((∃ x, v = .pattern x) ∧ r = v) := by
  rw [leaf_loads hs.coh (hd.pattern) (fun rec s => step_pat rec a v s)]
  unfold patCompile
  cases v with
  | str x => cases hre : W.reCompile (.str x) <;> simp [Except.map, @eq_comm _ r]
  | bytes x => cases hre : W.reCompile (.bytes x) <;> simp [Except.map, @eq_comm _ r]
  | pattern x => simp [@eq_comm _ r]
  | _ => simp

/-- **C35** (failure). If `re.compile` fails only with `re.error`, a failing pattern load raises a TypedloadException. -/
theorem C35_fails {s s' : LState} {a : Option Prim} (hd : C.Usual W (.pattern a)) (hs : Reachable W C s) (v : Val) {e : Exc}
    (hre : ∀ v c, W.reCompile v = .error c → c = .reError) (h : Raises W C s v (.pattern a) e s') :
    e.isTL = true ∧ e.value = v := by
  obtain ⟨e', hx, rfl⟩ := (leaf_raises hs.coh (hd.pattern) (fun rec s => step_pat rec a v s) e).1 ⟨s', h⟩
  cases hp : patCompile W v with
  | ok x => rw [hp] at hx; cases hx
  | error c =>
    rw [hp] at hx; simp only [Except.error.injEq] at hx
    have hc : c = .reError ∨ c = .type := by
      unfold patCompile at hp
      cases v <;> simp at hp
      case str x =>
        cases h : W.reCompile (.str x) with
        | ok => rw [h] at hp; cases hp
        | error c' => rw [h] at hp; cases hp; left; exact hre _ _ h
      case bytes x =>
        cases h : W.reCompile (.bytes x) with
        | ok => rw [h] at hp; cases hp
        | error c' => rw [h] at hp; cases hp; left; exact hre _ _ h
      all_goals (right; exact hp.symm)
    subst hx
    rcases hc with rfl | rfl <;> simp [loadExc, mkExc, ExcClass.isTL, ExcClass.isType, Exc.isTL]

/-- A defect: `Pattern[bytes]` accepts a str source (the check in `_patternload` is dead code). -/
theorem C35_parameter_counterexample (hd : C.Usual W (.pattern (some .bytes))) {s : LState} (hs : Reachable W C s) (x : String)
    (hx : W.reCompile (.str x) = .ok ()) :
    ∃ s', Loads W C s (.str x) (.pattern (some .bytes)) (.pattern (.str x)) s' :=
  (C35_pattern_partial hd hs _ _).2 (Or.inl ⟨Or.inl ⟨x, rfl⟩, hx, rfl⟩)

example : Sample.W.reCompile (.str "a+") = .ok () := rfl
example : (load Sample.W Sample.C 1 (.str "(") (.pattern none) (fresh [])).err?.map (·.cls) = some .tlBase := by decide

/-! ## C36 String-constructed types -/

theorem step_str (rec : Rec) (c : String) (v : Val) (s : LState) : step W C rec .strconstructload v (.strcons c) s =
    M.lift (match W.call (.strcons c) v with
      | .ok x => .ok x
      | .error e => .error (if e.isValue then mkExc .tlValue (.py e) v (.strcons c)
          else if e.isType then mkExc .tlType (.py e) v (.strcons c)
          else mkExc .tlBase (.py e) v (.strcons c))) s := by
  simp only [step, strconstructload, pyCall]
  cases W.call (.strcons c) v with
  | ok x => rfl
  | error e => dsimp only; (repeat' split) <;> rfl

/-- **C36** For a type in `strconstructed`, loading returns what calling the type on the value returns. -/
theorem C36_loads {s : LState} {c : String} (hd : C.Usual W (.strcons c)) (hs : Reachable W C s) (hc : c ∈ C.strconstructed) (v r : Val) :
    (∃ s', Loads W C s v (.strcons c) r s') ↔ W.call (.strcons c) v = .ok r := by
  rw [leaf_loads hs.coh (hd.strcons hc) (fun rec s => step_str rec c v s)]
  cases W.call (.strcons c) v <;> simp

/-- **C36** (failures). An exception of the constructor becomes the corresponding TypedloadException: ValueError and TypeError
their counterparts, anything else TypedloadException. -/
theorem C36_raises {s : LState} {c : String} (hd : C.Usual W (.strcons c)) (hs : Reachable W C s) (hc : c ∈ C.strconstructed) (v : Val)
    {x : ExcClass} (hx : W.call (.strcons c) v = .error x) :
    ∃ e s', Raises W C s v (.strcons c) e s' ∧ e.value = v ∧ e.ty = some (.strcons c) ∧
      e.cls = (if x.isValue then .tlValue else if x.isType then .tlType else .tlBase) := by
  obtain ⟨s', hr⟩ := (leaf_raises hs.coh (hd.strcons hc) (fun rec s => step_str rec c v s) _).2
    ⟨_, by rw [hx], rfl⟩
  refine ⟨_, s', hr, ?_⟩
  cases h1 : x.isValue <;> cases h2 : x.isType <;> simp [loadExc, mkExc, ExcClass.isTL]

/-- **C36** (not listed). A type not in `strconstructed` has no handler: TypedloadTypeError. -/
theorem C36_not_listed {s : LState} {c : String} (hd : C.Usual W (.strcons c)) (hs : Reachable W C s) (hc : c ∉ C.strconstructed) (v : Val) :
    ∃ e, Raises W C s v (.strcons c) e s ∧ e.cls = .tlType := by
  refine ⟨_, (raises_iff hs.coh).2 (Or.inr ⟨_, hd.strcons_none hc, rfl, rfl⟩), ?_⟩
  simp [lookupExc, ExcClass.isValue, mkExc]

example : "Path" ∈ Sample.C.strconstructed ∧ Sample.W.call (.strcons "Path") (.str "/x") = .ok (.strobj "Path" "/x") := by
  decide

end TL
