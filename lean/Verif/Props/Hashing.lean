import Verif.Spec.Hashing
import Verif.Props.Wellformed
import Verif.Props.Equality
import Verif.Props.ReadBack
/-!
# What can be in sets and keys (C15, C17, C76)
-/

namespace TL

variable {W : World} {C : Config} {D : DConfig}

theorem hashable_atom {hc : Nat → Bool} {v : Val} (h : HashAtom v) : hashable hc v = true := by
  cases h <;> simp [hashable]

theorem hash_of_hashable {v : Val} (h : Hashable W v) : W.hash v = true := by
  unfold World.hash
  induction h with
  | atom h => exact hashable_atom h
  | @tuple xs _ ih =>
    show hashableL W.hc xs = true
    cases hh : hashableL W.hc xs with
    | true => rfl
    | false => obtain ⟨x, hx, h⟩ := hashableL_false hh; rw [ih x hx] at h; cases h
  | @namedtuple c fs _ ih =>
    show hashableN W.hc fs = true
    cases hh : hashableN W.hc fs with
    | true => rfl
    | false => obtain ⟨x, hx, h⟩ := hashableN_false hh; rw [ih x hx] at h; cases h
  | @inst c fs hc _ ih =>
    have : hashableN W.hc fs = true := by
      cases hh : hashableN W.hc fs with
      | true => rfl
      | false => obtain ⟨x, hx, h⟩ := hashableN_false hh; rw [ih x hx] at h; cases h
    simp [hashable, this, World.hc, hc]

theorem hashableL_mem {hc : Nat → Bool} {xs : List Val} (h : hashableL hc xs = true) : ∀ x ∈ xs, hashable hc x = true := by
  induction xs with
  | nil => simp
  | cons x xs ih =>
    simp only [hashableL, Bool.and_eq_true] at h
    intro y hy
    rcases List.mem_cons.1 hy with rfl | hy
    · exact h.1
    · exact ih h.2 y hy
theorem hashableN_mem {hc : Nat → Bool} {xs : List (String × Val)} (h : hashableN hc xs = true) : ∀ p ∈ xs, hashable hc p.2 = true := by
  induction xs with
  | nil => simp
  | cons x xs ih =>
    obtain ⟨n, x⟩ := x
    simp only [hashableN, hashableS, Bool.and_eq_true] at h
    intro y hy
    rcases List.mem_cons.1 hy with rfl | hy
    · exact h.1
    · exact ih h.2 y hy

theorem hashable_of_hash_bounded (n : Nat) : ∀ v : Val, sizeOf v < n → W.hash v = true → Hashable W v := by
  induction n with
  | zero => intro v hn; omega
  | succ n ih =>
    intro v hn h
    unfold World.hash at h
    have fields : ∀ {c : Nat} {fs : List (String × Val)}, sizeOf fs < n → hashableN W.hc fs = true → ∀ p ∈ fs, Hashable W p.2 := by
      intro c fs hs hh p hp
      refine ih p.2 ?_ (hashableN_mem hh p hp)
      have h1 := List.sizeOf_lt_of_mem hp
      obtain ⟨a, b⟩ := p
      simp only [Prod.mk.sizeOf_spec] at h1
      show sizeOf b < n
      omega
    cases v with
    | seq k xs =>
      cases k with
      | list => cases h
      | set => cases h
      | frozenset => exact .atom .frozenset
      | tuple =>
        refine .tuple (fun x hx => ih x ?_ (hashableL_mem h x hx))
        have h1 := List.sizeOf_lt_of_mem hx
        simp at hn
        omega
    | dict => cases h
    | ns => cases h
    | nt c fs =>
      simp at hn
      exact .namedtuple (fields (c := c) (by omega) h)
    | inst c fs =>
      simp at hn
      simp only [hashable, Bool.and_eq_true] at h
      exact .inst h.1 (fields (c := c) (by omega) h.2)
    | none => exact .atom .none
    | bool => exact .atom .bool
    | int => exact .atom .int
    | float => exact .atom .float
    | str => exact .atom .str
    | bytes => exact .atom .bytes
    | enumv => exact .atom .enum
    | date => exact .atom .date
    | time => exact .atom .time
    | datetime => exact .atom .datetime
    | timedelta => exact .atom .timedelta
    | strobj => exact .atom .strobj
    | «opaque» => exact .atom .opaque
    | pattern => exact .atom .pattern

/-- The model's `hash` decides hashability. -/
theorem hash_iff {v : Val} : W.hash v = true ↔ Hashable W v :=
  ⟨hashable_of_hash_bounded (sizeOf v + 1) v (by omega), hash_of_hashable⟩

/-- What `x` is loaded as, at some moment of a load of well-formed data, is well formed. -/
theorem AcceptsAs.legal (hw : W.Makes) (hu : ∀ i x u, Installed C (.custom i) → Legal W x → (W.customLoad i x u).Makes W) {s : LState} (hs : Reachable W C s)
    {x : Val} {t : Ty} {y : Val} (h : AcceptsAs W C s x t y) (hx : Legal W x) : Legal W y := by
  obtain ⟨s1, s2, he, h⟩ := h
  obtain ⟨hh, hp, hP⟩ := h.sem (Meets.closed s1 t) (fun h v t o hg hs => legal_step hw hu h v t o hs)
    ⟨hs.coh.ext he, fun _ _ h => ⟨.known h, Or.inl h⟩, fun _ _ h => h.elim⟩ .self
  exact hP hx y rfl

/-- The dictionary `ds` is the outcome of the assignments `ps` made one after the other: no two keys are equal, every key assigned is there, every entry
holds the last value assigned to its key, and its key is one of those assigned.  (A NaN is not equal to itself, but a key is found if it is the same object.) -/
structure LastAssigned (ps ds : List (Val × Val)) : Prop where
  distinct : ds.Pairwise (fun a b => ¬ Equal a.1 b.1)
  all : ∀ p ∈ ps, ∃ d ∈ ds, d.1 = p.1 ∨ Equal d.1 p.1
  last : ∀ d ∈ ds, ∃ pre k post, ps = pre ++ (k, d.2) :: post ∧ (d.1 = k ∨ Equal d.1 k) ∧ ∀ q ∈ post, ¬ Equal d.1 q.1
  nothing_new : ∀ d ∈ ds, d.1 ∈ ps.map (·.1)

theorem LastWins.assigned {ps ds : List (Val × Val)} (h : LastWins ps ds) (hl : ∀ p ∈ ps, Legal W p.1) : LastAssigned ps ds := by
  have hd : ∀ d ∈ ds, Legal W d.1 := fun d hd => by
    obtain ⟨p, hp, he⟩ := List.mem_map.1 (h.nothing_new d hd)
    rw [← he]; exact hl p hp
  refine ⟨?_, ?_, ?_, h.nothing_new⟩
  · exact List.Pairwise.imp_of_mem (fun {a b} ha hb hn he => by rw [(pyEq_iff_equal (hd a ha) (hd b hb)).2 he] at hn; cases hn) h.distinct
  · intro p hp
    obtain ⟨d, hd', h'⟩ := h.all p hp
    exact ⟨d, hd', h'.imp id (pyEq_iff_equal (hd d hd') (hl p hp)).1⟩
  · intro d hd'
    obtain ⟨pre, k, post, h1, h2, h3⟩ := h.last d hd'
    have hk : Legal W k := hl (k, d.2) (by rw [h1]; simp)
    refine ⟨pre, k, post, h1, h2.imp id (pyEq_iff_equal (hd d hd') hk).1, fun q hq he => ?_⟩
    have := h3 q hq
    rw [(pyEq_iff_equal (hd d hd') (hl q (by rw [h1]; simp [hq]))).2 he] at this
    cases this

/-- **C15** What is in a loaded set is hashable. -/
theorem C15_members {s s' : LState} {k : SeqKind} {et : Ty} (hk : k = .set ∨ k = .frozenset) (hd : C.Usual W (.coll k et)) (hs : Reachable W C s) {v r : Val}
    (h : Loads W C s v (.coll k et) r s') : ∃ zs, r = .seq k zs ∧ ∀ z ∈ zs, Hashable W z := by
  replace hk : k.isSet = true := by rcases hk with rfl | rfl <;> rfl
  obtain ⟨_, xs, pre, post, ys, _, _, _, h4, h5, _⟩ := C15_elements_partial hd hs h
  refine ⟨_, h4, ?_⟩
  intro z hz
  unfold collect at hz
  rw [if_pos hk] at hz
  rcases (setAdd_foldl_spec ys [] List.Pairwise.nil).2.1 z hz with h | h
  · cases h
  · exact hash_iff.1 (h5 hk z h)

/-- **C17** A dictionary is loaded pair by pair; the keys are hashable, and a later pair replaces the value of an earlier one with an equal key. -/
theorem C17_last_assigned (hw : W.Makes) (hu : ∀ i x u, Installed C (.custom i) → Legal W x → (W.customLoad i x u).Makes W) {s s' : LState} {kt vt : Ty}
    (hd : C.Usual W (.dict kt vt)) (hs : Reachable W C s) {v r : Val} (hv : Legal W v) (hsafe : DictSafe C kt vt) (huk : C.Usual W kt) (huv : C.Usual W vt)
    (h : Loads W C s v (.dict kt vt) r s') :
    ∃ kvs ps ds, DictData C v kvs ∧ Zip2 (PairLoads W C s kt vt) kvs ps ∧ r = .dict ds ∧ LastAssigned ps ds ∧ ∀ d ∈ ds, Hashable W d.1 := by
  have hr := C76_wellformed hw hu hs hv h
  obtain ⟨kvs, ps, ds, h1, h2, h3, h4⟩ := C17_last_wins_legal hd hs hsafe huk huv h
  have hl : ∀ p ∈ ps, Legal W p.1 := by
    intro p hp
    obtain ⟨q, hq, h5, _⟩ := h2.mem_right hp
    rcases h5 with ⟨_, he⟩ | h5
    · rw [he]; exact (legal_dictData hv h1 hq).1
    · exact h5.legal hw hu hs (legal_dictData hv h1 hq).1
  subst h3
  exact ⟨kvs, ps, ds, h1, h2, rfl, (h4 hl).assigned hl, fun d hd => hash_iff.1 (hr.top.2 d hd)⟩

/-- What is in the sets and what are the keys of the dictionaries inside `r`: hashable values, pairwise not equal. -/
def SoundInside (W : World) (r : Val) : Prop :=
  (∀ k xs, Inside W r (.seq k xs) → k = .set ∨ k = .frozenset → (∀ x ∈ xs, Hashable W x) ∧ xs.Pairwise (fun a b => ¬ Equal a b)) ∧
  ∀ kvs, Inside W r (.dict kvs) → (∀ p ∈ kvs, Hashable W p.1) ∧ kvs.Pairwise (fun p q => ¬ Equal p.1 q.1)

theorem Legal.sound {r : Val} (h : Legal W r) : SoundInside W r := by
  constructor
  · intro k xs hi hk
    have h1 := (h.inside hi).top (by rcases hk with rfl | rfl <;> rfl)
    refine ⟨fun x hx => hash_iff.1 (h1.2 x hx), ?_⟩
    refine List.Pairwise.imp_of_mem (fun {a b} ha hb hn he => ?_) h1.1
    rw [(pyEq_iff_equal (h.inside (.elem hi ha)) (h.inside (.elem hi hb))).2 he] at hn
    cases hn
  · intro kvs hi
    have h1 := (h.inside hi).top
    refine ⟨fun x hx => hash_iff.1 (h1.2 x hx), ?_⟩
    refine List.Pairwise.imp_of_mem (fun {a b} ha hb hn he => ?_) (List.pairwise_map.1 h1.1)
    rw [(pyEq_iff_equal (h.inside (.key hi ha)) (h.inside (.key hi hb))).2 he] at hn
    cases hn

/-- **C76** Whatever is loaded, at any depth, the elements of its sets and the keys of its dictionaries are hashable and pairwise different. -/
theorem C76_members (hw : W.Makes) (hu : ∀ i x u, Installed C (.custom i) → Legal W x → (W.customLoad i x u).Makes W) {s s' : LState}
    (hs : Reachable W C s) {v : Val} {t : Ty} {r : Val} (hv : Legal W v) (h : Loads W C s v t r s') : SoundInside W r :=
  (C76_wellformed hw hu hs hv h).sound

/-- **C76** The same for what dump returns. -/
theorem C76_dump_members (hdd : D.Default) (hw : W.LegalDefaults) {sd sd' : DState} (hs : DReachable W D sd) {v : Val} (hv : Legal W v) {a : Ty} {d : Val}
    (h : Dumps W D sd v a d sd') : SoundInside W d := (C76_dump hdd hw hs hv h).sound

/-! ## Examples -/

namespace Sample

/-- `@dataclass(frozen=True) class Key: parts: List[int]`: it has a `__hash__`, that fails on the list. -/
def clsKey : ClassDef := { kind := .dataclass, name := "Key", fields := [ { name := "parts", ty := .coll .list (.prim .int) } ], hashable := true }
/-- `@dataclass(frozen=True) class Point: x: int; y: int` -/
def clsPoint : ClassDef :=
  { kind := .dataclass, name := "Point", fields := [ { name := "x", ty := .prim .int }, { name := "y", ty := .prim .int } ], hashable := true }
/-- The sample world with these classes. -/
def WKey : World := { Sample.W with cls := fun c => if c = 0 then clsKey else clsPoint }

/-- A point is hashable, a key with a list is not; nor is a tuple with a list inside, whatever else is in it. -/
example : Hashable WKey (.inst 1 [("x", .int 1), ("y", .int 2)]) ∧ ¬ Hashable WKey (.inst 0 [("parts", .list [.int 1])]) ∧
    (∀ xs, ¬ Hashable WKey (.tuple (.list [] :: xs))) ∧ ¬ Hashable Sample.W (.nt 1 [("a", .int 1), ("b", .list [])]) := by
  refine ⟨?_, ?_, ?_, ?_⟩
  · refine .inst rfl (fun p hp => ?_)
    simp at hp
    rcases hp with rfl | rfl <;> exact .atom .int
  · rw [← hash_iff]; decide
  · intro xs; rw [← hash_iff]; simp [World.hash, hashable, hashableL]
  · rw [← hash_iff]; decide

/-- `[{"x": 1, "y": 2}]` can be loaded into `Set[Point]`, `[{"parts": [1]}]` into `Set[Key]` is refused. -/
example : (∃ zs s', Loads WKey Sample.C (fresh []) (.list [.dict [(.str "x", .int 1), (.str "y", .int 2)]]) (.coll .set (.obj 1)) (.set zs) s' ∧ ∀ z ∈ zs, Hashable WKey z) ∧
    (load WKey Sample.C 9 (.list [.dict [(.str "parts", .list [.int 1])]]) (.coll .set (.obj 0)) (fresh [])).err?.map (·.cls) = some .tlType := by
  constructor
  · have h : ∃ s', Loads WKey Sample.C (fresh []) (.list [.dict [(.str "x", .int 1), (.str "y", .int 2)]]) (.coll .set (.obj 1))
        (.set [.inst 1 [("x", .int 1), ("y", .int 2)]]) s' := ⟨_, 9, rfl⟩
    obtain ⟨s', h⟩ := h
    obtain ⟨zs, he, hz⟩ := C15_members (C := Sample.C) (Or.inl rfl) (show Sample.C.Usual WKey (.coll .set (.obj 1)) from rfl) (.new _ _) h
    cases he
    exact ⟨_, s', h, hz⟩
  · rfl

theorem legal_keys : Legal Sample.W (.dict [(.int 5, .str "a"), (.str "5", .str "b")]) := by
  refine .of_parts ⟨?_, ?_⟩ (fun x hx => ?_)
  · simp [Distinct, pyEq, numKey]
  · decide
  · cases hx with
    | key h => simp at h; rcases h with ⟨rfl, _⟩ | ⟨rfl, _⟩; exact legal_int _; exact legal_str _
    | val h => simp at h; rcases h with ⟨_, rfl⟩ | ⟨_, rfl⟩ <;> exact legal_str _

/-- `{5: "a", "5": "b"}` into `Dict[int, str]`: the second pair wins. -/
example : ∃ ds s', Loads Sample.W Sample.C (fresh []) (.dict [(.int 5, .str "a"), (.str "5", .str "b")]) (.dict (.prim .int) (.prim .str)) (.dict ds) s' ∧
    ds = [(.int 5, .str "b")] ∧ (∃ ps, LastAssigned ps ds ∧ ps.length = 2) ∧ ∀ d ∈ ds, Hashable Sample.W d.1 := by
  have h : ∃ s', Loads Sample.W Sample.C (fresh []) (.dict [(.int 5, .str "a"), (.str "5", .str "b")]) (.dict (.prim .int) (.prim .str))
      (.dict [(.int 5, .str "b")]) s' := ⟨_, 9, rfl⟩
  obtain ⟨s', h⟩ := h
  obtain ⟨kvs, ps, ds, h1, h2, h3, h4, h5⟩ := C17_last_assigned Sample.makes (fun i _ _ hi _ => absurd hi (not_installed (show Sample.C.Default from rfl) i)) rfl
    (.new _ _) legal_keys (Or.inr (Or.inr ⟨rfl, rfl, by simp, by simp⟩)) rfl rfl h
  cases h3
  refine ⟨_, s', h, rfl, ⟨ps, h4, ?_⟩, h5⟩
  rcases h1 with h1 | ⟨_, h1, _⟩ <;> cases h1
  cases h2 with | cons _ h2 => cases h2 with | cons _ h2 => cases h2; rfl

/-- Whatever is loaded from data that can exist. -/
example (v r : Val) (t : Ty) (s' : LState) (hv : Legal Sample.W v) (h : Loads Sample.W Sample.C (fresh []) v t r s') : SoundInside Sample.W r :=
  C76_members Sample.makes (fun i _ _ hi _ => absurd hi (not_installed (show Sample.C.Default from rfl) i)) (.new _ _) hv h

/-- A dumped chain of nodes, of any length. -/
example (l : List Int) (d : Val) (sd' : DState) (h : Dumps Sample.W Sample.D {} (Sample.chain l) .any d sd') : SoundInside Sample.W d :=
  C76_dump_members (show Sample.D.Default from rfl) Sample.legalDefaults .new (Sample.chain_legal l) h

end Sample

end TL
