import Verif.Lemmas.DumpObjects
/-!
# C68: dump returns new objects
-/

namespace TL

variable {W : World} {C : DConfig}

/-! ## Specification -/

/-- `x` is dumped to `y`, the objects created having the addresses from `k` on. -/
def Makes (W : World) (C : DConfig) (O : Objects W) (x : AVal) (k : Nat) (y : AVal) : Prop := ∃ n k', adump W C O n x .any k = .ok y k'

/-- No object of `y` is at two places of it. -/
def Unshared (y : AVal) : Prop := y.addrs.Nodup

/-! ## Theorems -/

/-- **C68** What dump returns is the same whether or not one looks at the identity of objects (any dumper, after any history). -/
theorem C68_same (hd : C.Default) {s : DState} (hs : DReachable W C s) (O : Objects W) {x : AVal} (hl : Legal W x.erase) (k : Nat) (r : Val) :
    (∃ s', Dumps W C s x.erase .any r s') ↔ ∃ y, Makes W C O x k y ∧ y.erase = r := by
  rw [dumps_ref hd hs hl .any r]
  have key := fun n => at_dump (F := False) (O := O) hd hl (fun h => h.elim) n x .any k .self (fun h => h.elim)
  constructor
  · rintro ⟨n, h⟩
    have := key n
    unfold At at this
    rw [h] at this
    cases h1 : adump W C O n x .any k with
    | ok y k' => rw [h1] at this; exact ⟨y, ⟨n, k', h1⟩, this.2.1⟩
    | err e k' => rw [h1] at this; exact this.elim
    | div => rw [h1] at this; exact this.elim
  · rintro ⟨y, ⟨n, k', h⟩, rfl⟩
    have := key n
    unfold At at this
    rw [h] at this
    cases h1 : Ref.dump W C n x.erase .any () with
    | ok r u => rw [h1] at this; exact ⟨n, by rw [h1, this.2.1]⟩
    | err e k' => rw [h1] at this; exact this.elim
    | div => rw [h1] at this; exact this.elim

/-- **C68** The lists and dictionaries that dump returns are all new: none of them is one of the objects that existed before (their addresses are below `k`), and
none is at two places of the result.  So changing the result changes neither the value that was dumped nor any other part of the result.

Asked for: the annotations of dataclasses do not lie (`Truthful`, as in C38). -/
theorem C68_new (hd : C.Default) {O : Objects W} {x y : AVal} (hl : Legal W x.erase) (ht : Truthful W C x.erase) {k : Nat}
    (h : Makes W C O x k y) : Unshared y ∧ ∀ a ∈ y.addrs, k ≤ a := by
  obtain ⟨n, k', h⟩ := h
  have := at_dump (F := True) (O := O) hd hl (fun _ => ht) n x .any k .self (fun _ p k xs h => by cases h)
  unfold At at this
  rw [h] at this
  cases h1 : Ref.dump W C n x.erase .any () with
  | ok r u =>
    rw [h1] at this
    have := (this.2.2 trivial).nodup
    exact ⟨this.1, fun a ha => (this.2 a ha).1⟩
  | err e k' => rw [h1] at this; exact this.elim
  | div => rw [h1] at this; exact this.elim

/-- **C68** In particular the result shares nothing with the value that was dumped. -/
theorem C68_separate (hd : C.Default) {O : Objects W} {x y : AVal} (hl : Legal W x.erase) (ht : Truthful W C x.erase) {k : Nat}
    (hk : ∀ a ∈ x.addrs, a < k) (h : Makes W C O x k y) : ∀ a ∈ y.addrs, a ∉ x.addrs :=
  fun a ha hx => absurd ((C68_new hd hl ht h).2 a ha) (by have := hk a hx; omega)

/-! ## The hypotheses are met; counterexample -/

namespace AVal
mutual
/-- A value, all its objects having the address `a`. -/
def at' (a : Nat) : Val → AVal
  | .seq k xs => .seq a k (atL a xs)
  | .dict kvs => .dict a (atKV a kvs)
  | .ns fs => .ns a (atN a fs)
  | .nt c fs => .nt a c (atN a fs)
  | .inst c fs => .inst a c (atN a fs)
  | .none => .atom .none rfl
  | .bool b => .atom (.bool b) rfl
  | .int b => .atom (.int b) rfl
  | .float b => .atom (.float b) rfl
  | .str b => .atom (.str b) rfl
  | .bytes b => .atom (.bytes b) rfl
  | .enumv e n => .atom (.enumv e n) rfl
  | .date y m d => .atom (.date y m d) rfl
  | .time h m s us tz => .atom (.time h m s us tz) rfl
  | .datetime y mo d h m s us tz => .atom (.datetime y mo d h m s us tz) rfl
  | .timedelta us => .atom (.timedelta us) rfl
  | .pattern p => .atom (.pattern p) rfl
  | .strobj c r => .atom (.strobj c r) rfl
  | .opaque c i => .atom (.opaque c i) rfl
def atL (a : Nat) : List Val → List AVal
  | [] => []
  | x :: xs => at' a x :: atL a xs
def atKV (a : Nat) : List (Val × Val) → List (AVal × AVal)
  | [] => []
  | (k, x) :: xs => (at' a k, at' a x) :: atKV a xs
def atN (a : Nat) : List (String × Val) → List (String × AVal)
  | [] => []
  | (n, x) :: xs => (n, at' a x) :: atN a xs
end

mutual
theorem erase_at (a : Nat) : ∀ v : Val, (at' a v).erase = v
  | .seq k xs => by simp only [at', erase, eraseL_at a xs]
  | .dict kvs => by simp only [at', erase, eraseKV_at a kvs]
  | .ns fs => by simp only [at', erase, eraseN_at a fs]
  | .nt c fs => by simp only [at', erase, eraseN_at a fs]
  | .inst c fs => by simp only [at', erase, eraseN_at a fs]
  | .none | .bool _ | .int _ | .float _ | .str _ | .bytes _ | .enumv _ _ | .date _ _ _ | .time _ _ _ _ _ | .datetime _ _ _ _ _ _ _ _ | .timedelta _ | .pattern _
  | .strobj _ _ | .opaque _ _ => by simp only [at', erase]
theorem eraseL_at (a : Nat) : ∀ xs, eraseL (atL a xs) = xs
  | [] => rfl
  | x :: xs => by simp only [atL, eraseL, erase_at a x, eraseL_at a xs]
theorem eraseKV_at (a : Nat) : ∀ xs, eraseKV (atKV a xs) = xs
  | [] => rfl
  | (k, x) :: xs => by simp only [atKV, eraseKV, erase_at a k, erase_at a x, eraseKV_at a xs]
theorem eraseN_at (a : Nat) : ∀ xs, eraseN (atN a xs) = xs
  | [] => rfl
  | (n, x) :: xs => by simp only [atN, eraseN, erase_at a x, eraseN_at a xs]
end
end AVal

/-- Every program has its objects. -/
def Objects.some (W : World) : Objects W where
  member e n := .at' 0 ((aget (W.enm e).members n).getD .none)
  member_erase e n x h := by rw [AVal.erase_at, h]; rfl

/-- `[N(a=2, b='x'), E.A, {1, 2}, date(2020, 2, 29)]`, all the objects at the addresses 0 to 2. -/
def Sample.al0 : AVal := .seq 0 .list [.nt 1 1 [("a", .atom (.int 2) rfl), ("b", .str "x")], .atom (.enumv 0 "A") rfl,
  .seq 2 .set [.atom (.int 1) rfl, .atom (.int 2) rfl], .atom (.date 2020 2 29) rfl]

/-- It is dumped to `[{'a': 2}, 1, [1, 2], [2020, 2, 29]]`: four new objects. -/
example : Makes Sample.W Sample.D (.some Sample.W) Sample.al0 3
    (.seq 6 .list [.dict 3 [(.str "a", .atom (.int 2) rfl)], .atom (.int 1) rfl, .seq 4 .list [.atom (.int 1) rfl, .atom (.int 2) rfl],
      .seq 5 .list [.atom (.int 2020) rfl, .atom (.int 2) rfl, .atom (.int 29) rfl]]) := ⟨5, 7, rfl⟩
example (y : AVal) (h : Makes Sample.W Sample.D (.some Sample.W) Sample.al0 3 y) : Unshared y ∧ ∀ a ∈ y.addrs, a ∉ Sample.al0.addrs :=
  have hl : Legal Sample.W Sample.al0.erase := Sample.l0_legal
  have ht : Truthful Sample.W Sample.D Sample.al0.erase := Sample.l0_truthful
  ⟨(C68_new (C := Sample.D) rfl hl ht h).1, C68_separate (C := Sample.D) rfl hl ht (by decide) h⟩

/-- A list that is twice in the value is dumped twice: `a = [1]; dump([a, a])`. -/
example : Makes Sample.W Sample.D (.some Sample.W) (.seq 0 .list [.seq 1 .list [.atom (.int 1) rfl], .seq 1 .list [.atom (.int 1) rfl]]) 2
    (.seq 4 .list [.seq 2 .list [.atom (.int 1) rfl], .seq 3 .list [.atom (.int 1) rfl]]) := ⟨5, 5, rfl⟩

/-- **C68** fails when the annotation lies: the class says `List[int]`, the attribute is `[[1]]`; the inner list is returned itself. -/
theorem C68_alias_counterexample : ∃ (W : World) (x y : AVal) (k : Nat), Makes W {} (.some W) x k y ∧ (∀ a ∈ x.addrs, a < k) ∧ ∃ a ∈ y.addrs, a ∈ x.addrs :=
  ⟨{ Sample.W with cls := fun _ => { kind := .dataclass, name := "K", fields := [{ name := "xs", ty := .coll .list (.prim .int) }] } },
    .inst 0 0 [("xs", .seq 1 .list [.seq 2 .list [.atom (.int 1) rfl]])],
    .dict 4 [(.str "xs", .seq 3 .list [.seq 2 .list [.atom (.int 1) rfl]])], 3, ⟨5, 5, rfl⟩, by decide, 2, by decide, by decide⟩

end TL
