import Verif.Lemmas.LoadObjectsAll
import Verif.Props.DumpObjects
/-!
# C69, C70: what load returns is made of new objects; load does not modify the data
-/

namespace TL

variable {W : World} {C : Config}

/-! ## Specification -/

/-- `load(x, t)`, by a loader in the state `s`, when the addresses from `k` on are free, returns the object `y`; afterwards the loader is in the state `s'`, the
addresses from `k'` on are free, and the objects `ws` were written to. -/
def LoadsObj (W : World) (C : Config) (O : LObjects W) (s : LState) (k : Nat) (x : AVal) (t : Ty) (y : AVal) (s' : LState) (k' : Nat) (ws : List Nat) : Prop :=
  ∃ n, aload W C O n x t ⟨s, k, []⟩ = .ok y ⟨s', k', ws⟩

/-- `load(x, t)` raises `e`; the rest as in `LoadsObj`. -/
def RaisesObj (W : World) (C : Config) (O : LObjects W) (s : LState) (k : Nat) (x : AVal) (t : Ty) (e : Exc) (s' : LState) (k' : Nat) (ws : List Nat) : Prop :=
  ∃ n, aload W C O n x t ⟨s, k, []⟩ = .err e ⟨s', k', ws⟩

/-- Nothing lets objects through: no type that can be met is Any, the values of Literals are as Python allows, and constructing the classes uses nothing twice. -/
structure Sealed (W : World) (C : Config) (O : LObjects W) (s : LState) (t : Ty) : Prop where
  noAny : ¬ Meets W C s t .any
  lits : ∀ vs, Meets W C s t (.lit vs) → ∀ l ∈ vs, LitVal l = true
  tidy : ∀ c, Meets W C s t (.obj c) → Tidy O c

/-- The objects that exist before: those of the data, and the defaults that are shared by all instances. -/
def Before {W : World} (O : LObjects W) (x : AVal) (a : Nat) : Prop := a ∈ x.addrs ∨ ∃ c n d, O.shared c n = some d ∧ a ∈ d.addrs

/-! ## Lemmas -/

theorem scene (hd : C.Default) (O : LObjects W) (s : LState) (x : AVal) (t : Ty) (F : Prop) (hF : F → Sealed W C O s t) :
    Scene W C (Meets W C s t) (fun n u => Meets W C s t u ∧ Known W s n u) O F (Before O x) where
  dflt := hd
  closed := Meets.closed s t
  shared := fun c n d h _ ha => .inr ⟨c, n, d, h, ha⟩
  noAny := fun h => (hF h).noAny
  lits := fun h => (hF h).lits
  tidy := fun h => (hF h).tidy

theorem asim_load (hd : C.Default) {O : LObjects W} {s : LState} (hs : Reachable W C s) (k : Nat) (x : AVal) (t : Ty) {F : Prop} (hF : F → Sealed W C O s t)
    (hk : F → PlainKeys x.erase) (n : Nat) :
    ASim W C (fun n u => Meets W C s t u ∧ Known W s n u) k (ValOwn F (Before O x) k) (aload W C O n x t) (load W C n x.erase t) ⟨s, k, []⟩ :=
  ASim.loadWith (scene hd O s x t F hF) (ASim.run (scene hd O s x t F hF) n) x .self none ⟨s, k, []⟩ (hs.good_meets t) (Nat.le_refl _)
    ⟨fun _ ha => .inl ha, fun h => .inr (hk h)⟩

/-! ## Theorems -/

/-- **C69** What load does is the same whether or not one looks at the identity of objects: it returns the same, -/
theorem C69_same (hd : C.Default) {s : LState} (hs : Reachable W C s) (O : LObjects W) (k : Nat) (x : AVal) (t : Ty) (r : Val) (s' : LState) :
    Loads W C s x.erase t r s' ↔ ∃ y k' ws, LoadsObj W C O s k x t y s' k' ws ∧ y.erase = r := by
  constructor
  · rintro ⟨n, h⟩
    have := asim_iff.1 (asim_load (O := O) hd hs k x t (F := False) (fun h => h.elim) (fun h => h.elim) n)
    dsimp only at this
    rw [h] at this
    generalize hr : aload W C O n x t ⟨s, k, []⟩ = z at this
    cases this with
    | ok h1 h2 => exact ⟨_, _, _, ⟨n, hr⟩, h2.1⟩
  · rintro ⟨y, k', ws, ⟨n, h⟩, rfl⟩
    have := asim_iff.1 (asim_load (O := O) hd hs k x t (F := False) (fun h => h.elim) (fun h => h.elim) n)
    dsimp only at this
    rw [h] at this
    generalize hr : load W C n x.erase t s = z at this
    cases this with
    | ok h1 h2 => exact ⟨n, by rw [hr, h2.1]⟩

/-- **C69** or raises the same. -/
theorem C69_same_raises (hd : C.Default) {s : LState} (hs : Reachable W C s) (O : LObjects W) (k : Nat) (x : AVal) (t : Ty) (e : Exc) (s' : LState) :
    Raises W C s x.erase t e s' ↔ ∃ k' ws, RaisesObj W C O s k x t e s' k' ws := by
  constructor
  · rintro ⟨n, h⟩
    have := asim_iff.1 (asim_load (O := O) hd hs k x t (F := False) (fun h => h.elim) (fun h => h.elim) n)
    dsimp only at this
    rw [h] at this
    generalize hr : aload W C O n x t ⟨s, k, []⟩ = z at this
    cases this with
    | err h1 => exact ⟨_, _, n, hr⟩
  · rintro ⟨k', ws, n, h⟩
    have := asim_iff.1 (asim_load (O := O) hd hs k x t (F := False) (fun h => h.elim) (fun h => h.elim) n)
    dsimp only at this
    rw [h] at this
    generalize hr : load W C n x.erase t s = z at this
    cases this with
    | err h1 => exact ⟨n, hr⟩

/-- **C69** Every object of the result is new, or one of the data, or a default that all instances of a class share. -/
theorem C69_origin (hd : C.Default) {s : LState} (hs : Reachable W C s) {O : LObjects W} {k : Nat} {x : AVal} {t : Ty} {y : AVal} {s' : LState} {k' : Nat} {ws : List Nat}
    (h : LoadsObj W C O s k x t y s' k' ws) : ∀ a ∈ y.addrs, (k ≤ a ∧ a < k') ∨ a ∈ x.addrs ∨ ∃ c n d, O.shared c n = some d ∧ a ∈ d.addrs := by
  obtain ⟨n, h⟩ := h
  have := asim_iff.1 (asim_load (O := O) hd hs k x t (F := False) (fun h => h.elim) (fun h => h.elim) n)
  dsimp only at this
  rw [h] at this
  generalize hr : load W C n x.erase t s = z at this
  cases this with
  | ok h1 h2 => exact fun a ha => (h2.2.src a ha).symm

/-- **C69** Without Any and with classes that make their defaults anew, all the containers and objects of the result are new (the addresses below `k` are those of the
objects that existed before), and none is at two places of the result: changing the result changes neither the data nor any other part of the result.

Asked for: `Sealed` (see there); the keys of the dictionaries of the data are plain values. -/
theorem C69_new (hd : C.Default) {s : LState} (hs : Reachable W C s) {O : LObjects W} {k : Nat} {x : AVal} {t : Ty} (hq : Sealed W C O s t) (hkeys : PlainKeys x.erase)
    {y : AVal} {s' : LState} {k' : Nat} {ws : List Nat} (h : LoadsObj W C O s k x t y s' k' ws) : Unshared y ∧ ∀ a ∈ y.addrs, k ≤ a ∧ a < k' := by
  obtain ⟨n, h⟩ := h
  have := asim_iff.1 (asim_load (O := O) hd hs k x t (F := True) (fun _ => hq) (fun _ => hkeys) n)
  dsimp only at this
  rw [h] at this
  generalize hr : load W C n x.erase t s = z at this
  cases this with
  | ok h1 h2 => exact (h2.2.fresh trivial).nodup

/-- The addresses that were free stay below those that are. -/
theorem LoadsObj.le (hd : C.Default) {s : LState} (hs : Reachable W C s) {O : LObjects W} {k : Nat} {x : AVal} {t : Ty} {y : AVal} {s' : LState} {k' : Nat} {ws : List Nat}
    (h : LoadsObj W C O s k x t y s' k' ws) : k ≤ k' := by
  obtain ⟨n, h⟩ := h
  have := asim_iff.1 (asim_load (O := O) hd hs k x t (F := False) (fun h => h.elim) (fun h => h.elim) n)
  dsimp only at this
  rw [h] at this
  generalize hr : load W C n x.erase t s = z at this
  cases this with
  | ok h1 h2 => exact h1.next

/-- **C69** The results of two loads, one after the other, even of the same data, share nothing with each other or with the data. -/
theorem C69_separate (hd : C.Default) {s1 s2 : LState} (hs1 : Reachable W C s1) (hs2 : Reachable W C s2) {O : LObjects W} {k1 k2 : Nat} {x1 x2 : AVal} {t1 t2 : Ty}
    (hq1 : Sealed W C O s1 t1) (hq2 : Sealed W C O s2 t2) (hkeys1 : PlainKeys x1.erase) (hkeys2 : PlainKeys x2.erase)
    (hx1 : ∀ a ∈ x1.addrs, a < k1) (hx2 : ∀ a ∈ x2.addrs, a < k1) {y1 y2 : AVal} {s1' s2' : LState} {k1' k2' : Nat} {ws1 ws2 : List Nat}
    (h1 : LoadsObj W C O s1 k1 x1 t1 y1 s1' k1' ws1) (hlater : k1' ≤ k2) (h2 : LoadsObj W C O s2 k2 x2 t2 y2 s2' k2' ws2) :
    (∀ a ∈ y1.addrs, a ∉ y2.addrs) ∧ (∀ a ∈ y1.addrs, a ∉ x1.addrs ∧ a ∉ x2.addrs) ∧ (∀ a ∈ y2.addrs, a ∉ x1.addrs ∧ a ∉ x2.addrs) := by
  have n1 := C69_new hd hs1 hq1 hkeys1 h1
  have n2 := C69_new hd hs2 hq2 hkeys2 h2
  have hle := h1.le hd hs1
  refine ⟨fun a ha hb => ?_, fun a ha => ⟨fun hb => ?_, fun hb => ?_⟩, fun a ha => ⟨fun hb => ?_, fun hb => ?_⟩⟩
  · have := n1.2 a ha; have := n2.2 a hb; omega
  · have := n1.2 a ha; have := hx1 a hb; omega
  · have := n1.2 a ha; have := hx2 a hb; omega
  · have := n2.2 a ha; have := hx1 a hb; omega
  · have := n2.2 a ha; have := hx2 a hb; omega

/-- **C69** Any returns the object itself, whatever it is, and creates nothing. -/
theorem C69_any (hd : C.Default) {s : LState} (hs : Reachable W C s) (O : LObjects W) (k : Nat) (x y : AVal) (s' : LState) (k' : Nat) (ws : List Nat)
    (h : LoadsObj W C O s k x .any y s' k' ws) : y = x ∧ k' = k ∧ ws = [] := by
  obtain ⟨n, h⟩ := h
  have h1 := loadResolve_eq (C := C) hs.coh (v := x.erase) (t := .any)
  rw [pick_any hd] at h1
  unfold aload aloadWith at h
  rw [M.bind_apply] at h
  unfold alift at h
  dsimp only at h
  rw [h1] at h
  cases n with
  | zero => cases h
  | succ n => cases h; exact ⟨rfl, rfl, rfl⟩

/-- **C70** Load writes only to objects that it has created, whether it returns -/
theorem C70_untouched (hd : C.Default) {s : LState} (hs : Reachable W C s) {O : LObjects W} {k : Nat} {x : AVal} {t : Ty} {y : AVal} {s' : LState} {k' : Nat} {ws : List Nat}
    (h : LoadsObj W C O s k x t y s' k' ws) : ∀ w ∈ ws, k ≤ w := by
  obtain ⟨n, h⟩ := h
  have := asim_iff.1 (asim_load (O := O) hd hs k x t (F := False) (fun h => h.elim) (fun h => h.elim) n)
  dsimp only at this
  rw [h] at this
  generalize hr : load W C n x.erase t s = z at this
  cases this with
  | ok h1 h2 =>
    obtain ⟨l, h3, h4⟩ := h1.log
    simp only [List.append_nil] at h3
    subst h3
    exact h4

/-- **C70** or raises. -/
theorem C70_untouched_raises (hd : C.Default) {s : LState} (hs : Reachable W C s) {O : LObjects W} {k : Nat} {x : AVal} {t : Ty} {e : Exc} {s' : LState} {k' : Nat} {ws : List Nat}
    (h : RaisesObj W C O s k x t e s' k' ws) : ∀ w ∈ ws, k ≤ w := by
  obtain ⟨n, h⟩ := h
  have := asim_iff.1 (asim_load (O := O) hd hs k x t (F := False) (fun h => h.elim) (fun h => h.elim) n)
  dsimp only at this
  rw [h] at this
  generalize hr : load W C n x.erase t s = z at this
  cases this with
  | err h1 =>
    obtain ⟨l, h3, h4⟩ := h1.log
    simp only [List.append_nil] at h3
    subst h3
    exact h4

/-- **C70** In particular the objects of the data and the shared defaults are not written to. -/
theorem C70_data (hd : C.Default) {s : LState} (hs : Reachable W C s) {O : LObjects W} {k : Nat} {x : AVal} {t : Ty} (hx : ∀ a ∈ x.addrs, a < k)
    (hO : ∀ c n d, O.shared c n = some d → ∀ a ∈ d.addrs, a < k) {s' : LState} {k' : Nat} {ws : List Nat}
    (h : (∃ y, LoadsObj W C O s k x t y s' k' ws) ∨ ∃ e, RaisesObj W C O s k x t e s' k' ws) :
    ∀ w ∈ ws, w ∉ x.addrs ∧ ∀ c n d, O.shared c n = some d → w ∉ d.addrs := by
  have hw : ∀ w ∈ ws, k ≤ w := by
    rcases h with ⟨y, h⟩ | ⟨e, h⟩
    · exact C70_untouched hd hs h
    · exact C70_untouched_raises hd hs h
  exact fun w hm => ⟨fun ha => absurd (hw w hm) (by have := hx w ha; omega), fun c n d hd ha => absurd (hw w hm) (by have := hO c n d hd w ha; omega)⟩

/-! ## The hypotheses are met; counterexamples -/

/-- Every program has its objects: here nothing is shared, and the constructors copy. -/
def LObjects.none (W : World) : LObjects W where
  shared _ _ := Option.none
  shared_erase _ _ _ _ h := by cases h
  hook c k fs := (W.initHook c (AVal.eraseN fs)).map (fun r => AVal.buildN r k)
  hook_erase c k fs := by
    cases W.initHook c (AVal.eraseN fs) with
    | error e => rfl
    | ok r => simp only [Except.map, (AVal.buildN_spec r k).1]
  hook_own c k fs r k' h := by
    cases h1 : W.initHook c (AVal.eraseN fs) with
    | error e => rw [h1] at h; cases h
    | ok v =>
      rw [h1] at h
      have hb := AVal.buildN_spec v k
      simp only [Except.map, Except.ok.injEq] at h
      rw [h] at hb
      exact ⟨hb.2.1, fun a ha => .inr (hb.2.2.nodup.2 a ha)⟩

theorem LObjects.none_tidy {W : World} (h : W.DistinctFields) (c : Nat) : Tidy (LObjects.none W) c where
  names := h c
  shared n x hx := by cases hx
  hook k fs r k' h a := by
    cases h1 : W.initHook c (AVal.eraseN fs) with
    | error e => simp only [LObjects.none, h1] at h; cases h
    | ok v =>
      have hb := AVal.buildN_spec v k
      simp only [LObjects.none, h1, Except.map, Except.ok.injEq] at h
      rw [h] at hb
      have h2 := hb.2.2 a
      dsimp only at h2
      omega

/-- `class Node: v: int; next: Optional['Node']`: the types met when loading into it. -/
theorem Sample.meets_anodes {u : Ty} (h : Meets W Sample.C (fresh []) (.obj 7) u) (hW : W = Sample.W) :
    u ∈ [Ty.obj 7, .prim .int, .union [.fref "Node", .prim .none], .fref "Node", .prim .none] := by
  subst hW
  induction h with
  | self => simp
  | known hb => obtain ⟨fr, h1, h2⟩ := hb; cases h1; cases h2
  | coll _ ih => simp at ih
  | tuple _ _ ih => simp at ih
  | dictKey _ ih => simp at ih
  | dictVal _ ih => simp at ih
  | union _ hu ih => simp at ih; subst ih; simp at hu; rcases hu with rfl | rfl <;> simp
  | newtype _ ih => simp at ih
  | enum _ _ ih => simp at ih
  | field _ hf ht ih =>
    simp at ih; subst ih
    rcases List.mem_cons.1 hf with rfl | hf
    · cases ht with
      | declared => simp
      | converter _ h => cases h
      | untyped _ h => cases h
      | manyHints _ h => cases h
    · rcases List.mem_cons.1 hf with rfl | hf
      · cases ht with
        | declared => simp
        | converter _ h => cases h
        | untyped _ h => cases h
        | manyHints _ h => cases h
      · cases hf
  | custom hi => exact absurd hi (not_installed (C := Sample.C) rfl _)

theorem Sample.sealed_anodes : Sealed Sample.W Sample.C (.none Sample.W) (fresh []) (.obj 7) where
  noAny h := by have := Sample.meets_anodes h rfl; simp at this
  lits vs h := by have := Sample.meets_anodes h rfl; simp at this
  tidy c _ := LObjects.none_tidy Sample.distinctFields c

/-- `{'v': 1, 'next': {'v': 2, 'next': None}}`, at the addresses 0 and 1. -/
def Sample.anodes : AVal := .dict 0 [(.str "v", .atom (.int 1) rfl), (.str "next", .dict 1 [(.str "v", .atom (.int 2) rfl), (.str "next", .atom .none rfl)])]

/-- What is within a value is the value, or within an element, a value or a name of it. -/
theorem Within.cases {v w : Val} (h : Within v w) : w = v ∨ (∃ xs x, pyIter v = some xs ∧ x ∈ xs ∧ Within x w) ∨ (∃ x, ValueOf v x ∧ Within x w) ∨
    ∃ kvs n x, v = .ns kvs ∧ (n, x) ∈ kvs ∧ Within (.str n) w := by
  induction h with
  | self => exact .inl rfl
  | elem h1 h2 h3 ih =>
    rcases ih with rfl | ⟨xs, x, h4, h5, h6⟩ | ⟨x, h4, h5⟩ | ⟨kvs, n, x, h4, h5, h6⟩
    · exact .inr (.inl ⟨_, _, h2, h3, .self⟩)
    · exact .inr (.inl ⟨xs, x, h4, h5, .elem h6 h2 h3⟩)
    · exact .inr (.inr (.inl ⟨x, h4, .elem h5 h2 h3⟩))
    · exact .inr (.inr (.inr ⟨kvs, n, x, h4, h5, .elem h6 h2 h3⟩))
  | value h1 h2 ih =>
    rcases ih with rfl | ⟨xs, x, h4, h5, h6⟩ | ⟨x, h4, h5⟩ | ⟨kvs, n, x, h4, h5, h6⟩
    · exact .inr (.inr (.inl ⟨_, h2, .self⟩))
    · exact .inr (.inl ⟨xs, x, h4, h5, .value h6 h2⟩)
    · exact .inr (.inr (.inl ⟨x, h4, .value h5 h2⟩))
    · exact .inr (.inr (.inr ⟨kvs, n, x, h4, h5, .value h6 h2⟩))
  | name h1 h2 ih =>
    rcases ih with rfl | ⟨xs, x, h4, h5, h6⟩ | ⟨x, h4, h5⟩ | ⟨kvs, n, x, h4, h5, h6⟩
    · exact .inr (.inr (.inr ⟨_, _, _, rfl, h2, .self⟩))
    · exact .inr (.inl ⟨xs, x, h4, h5, .name h6 h2⟩)
    · exact .inr (.inr (.inl ⟨x, h4, .name h5 h2⟩))
    · exact .inr (.inr (.inr ⟨kvs, n, x, h4, h5, .name h6 h2⟩))

/-- Everything within a plain value is plain. -/
theorem Within.atom {v w : Val} (h : Within v w) (hv : v.isAtom = true) : w.isAtom = true := by
  induction h with
  | self => exact hv
  | elem _ h2 h3 ih => exact pyIter_atom ih h2 _ h3
  | value _ h2 ih => rcases h2 with ⟨_, _, rfl, _⟩ | ⟨_, _, rfl, _⟩ <;> cases ih
  | name _ _ _ => rfl

theorem PlainKeys.atom {v : Val} (h : v.isAtom = true) : PlainKeys v := fun kvs hw => by have := hw.atom h; cases this
theorem PlainKeys.seq {k : SeqKind} {xs : List Val} (h : ∀ x ∈ xs, PlainKeys x) : PlainKeys (.seq k xs) := by
  intro kvs hw
  rcases hw.cases with h1 | ⟨ys, x, h1, h2, h3⟩ | ⟨x, h1, _⟩ | ⟨_, _, _, h1, _⟩
  · cases h1
  · cases h1; exact h x h2 kvs h3
  · rcases h1 with ⟨_, _, h1, _⟩ | ⟨_, _, h1, _⟩ <;> cases h1
  · cases h1
theorem PlainKeys.dict {kvs : List (Val × Val)} (h : ∀ p ∈ kvs, p.1.isAtom = true ∧ PlainKeys p.2) : PlainKeys (.dict kvs) := by
  intro kvs' hw
  rcases hw.cases with h1 | ⟨ys, x, h1, h2, h3⟩ | ⟨x, h1, h3⟩ | ⟨_, _, _, h1, _⟩
  · cases h1; exact fun p hp => (h p hp).1
  · cases h1
    obtain ⟨p, hp, rfl⟩ := List.mem_map.1 h2
    exact PlainKeys.atom (h p hp).1 _ h3
  · rcases h1 with ⟨_, _, h1, h2⟩ | ⟨_, _, h1, _⟩ <;> cases h1
    exact (h _ h2).2 kvs' h3
  · cases h1

theorem Sample.anodes_plain : PlainKeys Sample.anodes.erase := by
  refine PlainKeys.dict (fun p hp => ?_)
  simp [AVal.erase, AVal.eraseKV, AVal.str] at hp
  rcases hp with rfl | rfl
  · exact ⟨rfl, .atom rfl⟩
  · refine ⟨rfl, PlainKeys.dict (fun p hp => ?_)⟩
    simp at hp
    rcases hp with rfl | rfl
    · exact ⟨rfl, .atom rfl⟩
    · exact ⟨rfl, .atom rfl⟩

/-- It is loaded. -/
theorem Sample.anodes_loads : ∃ y s' k' ws, LoadsObj Sample.W Sample.C (.none Sample.W) (fresh []) 2 Sample.anodes (.obj 7) y s' k' ws ∧
    y.erase = .inst 7 [("v", .int 1), ("next", .inst 7 [("v", .int 2), ("next", .none)])] := by
  have h : (load Sample.W Sample.C 9 Sample.anodes.erase (.obj 7) (fresh [])).val? =
    some (.inst 7 [("v", .int 1), ("next", .inst 7 [("v", .int 2), ("next", .none)])]) := by decide
  cases hr : load Sample.W Sample.C 9 Sample.anodes.erase (.obj 7) (fresh []) with
  | ok r s' =>
    rw [hr] at h
    cases h
    obtain ⟨y, k', ws, h1, h2⟩ := (C69_same (C := Sample.C) rfl (Reachable.new (some []) []) (.none Sample.W) 2 Sample.anodes _ _ s').1 ⟨9, hr⟩
    exact ⟨y, s', k', ws, h1, h2⟩
  | err e s' => rw [hr] at h; cases h
  | div => rw [hr] at h; cases h

/-- All the hypotheses together, for `load({'v': 1, 'next': {'v': 2, 'next': None}}, Node)`: the two objects of the result are new. -/
example : ∃ y s' k' ws, LoadsObj Sample.W Sample.C (.none Sample.W) (fresh []) 2 Sample.anodes (.obj 7) y s' k' ws ∧
    Unshared y ∧ (∀ a ∈ y.addrs, 2 ≤ a) ∧ ∀ w ∈ ws, w ∉ Sample.anodes.addrs := by
  obtain ⟨y, s', k', ws, h, _⟩ := Sample.anodes_loads
  have hs : Reachable Sample.W Sample.C (fresh []) := Reachable.new (some []) []
  have := C69_new (C := Sample.C) rfl hs Sample.sealed_anodes Sample.anodes_plain h
  exact ⟨y, s', k', ws, h, this.1, fun a ha => (this.2 a ha).1,
    fun w hw => (C70_data (C := Sample.C) rfl hs (by decide) (fun _ _ _ h => by cases h) (.inl ⟨y, h⟩) w hw).1⟩

/-- Loading it twice gives two instances that share nothing. -/
example {y1 y2 : AVal} {s1' s2' : LState} {k1' k2' : Nat} {ws1 ws2 : List Nat}
    (h1 : LoadsObj Sample.W Sample.C (.none Sample.W) (fresh []) 2 Sample.anodes (.obj 7) y1 s1' k1' ws1)
    (h2 : LoadsObj Sample.W Sample.C (.none Sample.W) (fresh []) k1' Sample.anodes (.obj 7) y2 s2' k2' ws2) : ∀ a ∈ y1.addrs, a ∉ y2.addrs :=
  have hs : Reachable Sample.W Sample.C (fresh []) := Reachable.new (some []) []
  (C69_separate (C := Sample.C) rfl hs hs Sample.sealed_anodes Sample.sealed_anodes Sample.anodes_plain Sample.anodes_plain (by decide) (by decide) h1 (Nat.le_refl _) h2).1

/-- `a = [1]; load([a, a], List[List[int]])` gives two different lists. -/
example : ∃ s' ws, LoadsObj Sample.W Sample.C (.none Sample.W) (fresh []) 2 (.seq 0 .list [.seq 1 .list [.atom (.int 1) rfl], .seq 1 .list [.atom (.int 1) rfl]])
    (.coll .list (.coll .list (.prim .int))) (.seq 2 .list [.seq 3 .list [.atom (.int 1) rfl], .seq 4 .list [.atom (.int 1) rfl]]) s' 5 ws := ⟨_, _, 4, rfl⟩

/-- **C69** fails with Any: `x = {'a': [1]}; load(x, Dict[str, Any])['a'] is x['a']`. -/
theorem C69_any_counterexample : ∃ (W : World) (C : Config) (x y : AVal) (s' : LState) (k' : Nat) (ws : List Nat),
    LoadsObj W C (.none W) (fresh []) 2 x (.dict (.prim .str) .any) y s' k' ws ∧ (∀ a ∈ x.addrs, a < 2) ∧ ∃ a ∈ y.addrs, a ∈ x.addrs :=
  ⟨Sample.W, Sample.C, .dict 0 [(.str "a", .seq 1 .list [.atom (.int 1) rfl])], .dict 3 [(.str "a", .seq 1 .list [.atom (.int 1) rfl])], _, 4, _, ⟨4, rfl⟩, by decide, 1,
    by decide, by decide⟩

/-- `class N(NamedTuple): xs: List[int] = []` -/
def Sample.WShared : World := { Sample.W with cls := fun _ => { kind := .namedtuple, name := "N", fields := [{ name := "xs", ty := .coll .list (.prim .int), default := some (.seq .list []) }] } }
/-- The one list that is the default, at the address 0. -/
def Sample.OShared : LObjects Sample.WShared :=
  { LObjects.none Sample.WShared with
    shared := fun _ n => if n = "xs" then some (.seq 0 .list []) else Option.none
    shared_erase := by
      intro c f hf x h
      simp [Sample.WShared] at hf
      subst hf
      simp at h
      subst h
      rfl }

/-- **C69** fails with defaults that are shared: the `xs` of two loaded instances is one list. -/
theorem C69_default_counterexample : ∃ (W : World) (C : Config) (O : LObjects W) (x y1 y2 : AVal) (s1 s2 : LState) (k1 k2 : Nat) (ws1 ws2 : List Nat),
    LoadsObj W C O (fresh []) 2 x (.obj 0) y1 s1 k1 ws1 ∧ LoadsObj W C O s1 k1 x (.obj 0) y2 s2 k2 ws2 ∧ ∃ a ∈ y1.addrs, a ∈ y2.addrs :=
  ⟨Sample.WShared, Sample.C, Sample.OShared, .dict 1 [], .nt 3 0 [("xs", .seq 0 .list [])], .nt 5 0 [("xs", .seq 0 .list [])], _, _, 4, 6, _, _, ⟨4, rfl⟩, ⟨4, rfl⟩, 0, by decide, by decide⟩

end TL
