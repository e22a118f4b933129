import Verif.Props.Containers
import Verif.Props.Dispatch
/-!
# C54: handlers added by the user are used inside containers
-/

namespace TL

variable {W : World} {C : Config}

theorem zip2_functional {α β : Type} {R : α → β → Prop} (hf : ∀ a b b', R a b → R a b' → b = b') {as : List α} {bs bs' : List β}
    (h : Zip2 R as bs) (h' : Zip2 R as bs') : bs = bs' := by
  induction h generalizing bs' with
  | nil => cases h'; rfl
  | cons h1 _ ih =>
    cases h' with
    | cons h2 h3 => rw [hf _ _ _ h1 h2, ih h3]

theorem custom_accepts {s s' : LState} (hc : Coh W C s) {x y : Val} {t : Ty} {j : Nat} (hj : pick W C t = .ok (.custom j))
    (h : Loads W C s x t y s') : ∃ s0, Ext W C s s0 ∧ Plays (Answers W C) (W.customLoad j x t) s0 (.ok y) s' := by
  obtain ⟨n, hh, hp, hr⟩ := (loads_iff hc).1 h
  rw [hj] at hp; cases hp
  exact ⟨_, cacheReg_ext hj, (custom_run (o := .ok y)).1 ⟨n, hr⟩⟩

theorem custom_raises {s : LState} {x : Val} {t : Ty} {j : Nat} {e : Exc} (hj : pick W C t = .ok (.custom j))
    (h : HandlerRaises W C s x t e) : ∃ s0 s', Ext W C s s0 ∧ Plays (Answers W C) (W.customLoad j x t) s0 (.error e) s' := by
  obtain ⟨s1, s2, he, n, hh, hp, hr⟩ := h
  rw [hj] at hp; cases hp
  exact ⟨s1, s2, he, (custom_run (o := .error e)).1 ⟨n, hr⟩⟩

/-- **C54** Let the handler that `index(T)` selects be one of the user's, while `List[T]` (`Tuple[T, ...]`, `Set[T]`) has its default handler.
After any history, the result of loading an iterable into `List[T]` contains exactly what the user's handler returns for each of the
elements — if `T` is neither a basic type nor a union of basic types (see the counterexample), and the handler does not raise StopIteration.
The handler may call the loader back. -/
theorem C54_elements_sound {s s' : LState} (hs : Reachable W C s) {k : SeqKind} {et : Ty} {j : Nat}
    (hk : pick W C (.coll k et) = .ok (collHandler k)) (hj : pick W C et = .ok (.custom j))
    {v : Val} {xs : List Val} (hx : pyIter v = some xs) (hpass : ∀ x ∈ xs, ¬ PassThrough C et x)
    (hstop : ∀ x ∈ xs, ∀ s1 s2 e, Ext W C s s1 → Plays (Answers W C) (W.customLoad j x et) s1 (.error e) s2 → e.cls ≠ .stopIteration)
    {r : Val} (h : Loads W C s v (.coll k et) r s') :
    ∃ ys, Zip2 (fun x y => ∃ s1 s2, Ext W C s s1 ∧ Plays (Answers W C) (W.customLoad j x et) s1 (.ok y) s2) xs ys ∧
      r = .seq k (if k.isSet then ys.foldl setAdd [] else ys) := by
  obtain ⟨_, xs', ys, hx', rfl, pre, post, zs, rfl, hz, rfl, _, hpost⟩ := coll_loads_of hs.coh hk h
  rw [hx] at hx'
  cases hx'
  rcases hpost with rfl | ⟨x, e, post', rfl, hr, he, _⟩
  · refine ⟨zs, ?_, rfl⟩
    simp only [List.append_nil] at hpass ⊢
    have : ∀ (l : List Val) (zs : List Val), (∀ x ∈ l, ¬ PassThrough C et x) → Zip2 (ElemLoads W C s et) l zs →
        Zip2 (fun x y => ∃ s1 s2, Ext W C s s1 ∧ Plays (Answers W C) (W.customLoad j x et) s1 (.ok y) s2) l zs := by
      intro l zs hl hz
      induction hz with
      | nil => exact .nil
      | cons h _ ih =>
        refine .cons ?_ (ih (fun x hx => hl x (by simp [hx])))
        rcases h with ⟨hp, _⟩ | ⟨_, s1, s2, he, hl'⟩
        · exact absurd hp (hl _ (by simp))
        · obtain ⟨s0, h1, h2⟩ := custom_accepts (hs.coh.ext he) hj hl'
          exact ⟨s0, s2, he.trans h1, h2⟩
    exact this _ _ hpass hz
  · obtain ⟨s1, s2, h1, h2⟩ := custom_raises hj hr
    exact absurd he (hstop x (by simp) s1 s2 e h1 h2)

/-- **C54** In the other direction: if the user's handler accepts all elements, whatever the loader has learnt in the meantime, the load succeeds. -/
theorem C54_elements_complete {s : LState} (hs : Reachable W C s) {k : SeqKind} {et : Ty} {j : Nat}
    (hk : pick W C (.coll k et) = .ok (collHandler k)) (hj : pick W C et = .ok (.custom j))
    {v : Val} {xs : List Val} (hv : v.isDict = false) (hx : pyIter v = some xs) (hpass : ∀ x ∈ xs, ¬ PassThrough C et x)
    (hall : ∀ x ∈ xs, ∀ s1, Ext W C s s1 → ∃ y s2, Plays (Answers W C) (W.customLoad j x et) s1 (.ok y) s2 ∧ (k.isSet = true → W.hash y = true)) :
    ∃ r s', Loads W C s v (.coll k et) r s' := by
  have hall : ∀ x ∈ xs, ∀ s1, Ext W C s s1 → ∃ y s2,
      (PassThrough C et x ∧ y = x ∨ ¬ PassThrough C et x ∧ Loads W C s1 x et y s2) ∧ (k.isSet = true → W.hash y = true) := by
    intro x hm s1 he
    have hc := hs.coh.ext he
    obtain ⟨y, s2, hy, hh⟩ := hall x hm (cacheReg W et (.custom j) s1) (he.trans (cacheReg_ext hj))
    obtain ⟨n, hn⟩ := custom_run.2 hy
    exact ⟨y, s2, Or.inr ⟨hpass x hm, (loads_iff hc).2 ⟨n, _, hj, hn⟩⟩, hh⟩
  exact coll_complete hs hk hv hx hj hall

/-- **C54** For a handler that does not call the loader back: after any history, an iterable loads into `List[T]` exactly when the user's
handler accepts all its elements, and the result is the list of what it returns. -/
theorem C54_elements {s : LState} (hs : Reachable W C s) {k : SeqKind} (hlt : k = .list ∨ k = .tuple) {et : Ty} {j : Nat}
    (hk : pick W C (.coll k et) = .ok (collHandler k)) (hj : pick W C et = .ok (.custom j))
    {v : Val} {xs : List Val} (hv : v.isDict = false) (hx : pyIter v = some xs) (hpass : ∀ x ∈ xs, ¬ PassThrough C et x)
    (hst : ∀ x ∈ xs, (∃ y, W.customLoad j x et = .ret y) ∨ ∃ e, W.customLoad j x et = .raise e ∧ e.cls ≠ .stopIteration) (r : Val) :
    (∃ s', Loads W C s v (.coll k et) r s') ↔ ∃ ys, Zip2 (fun x y => W.customLoad j x et = .ret y) xs ys ∧ r = .seq k ys := by
  have hset : k.isSet = false := by rcases hlt with rfl | rfl <;> rfl
  have sound : ∀ r s', Loads W C s v (.coll k et) r s' → ∃ ys, Zip2 (fun x y => W.customLoad j x et = .ret y) xs ys ∧ r = .seq k ys := by
    intro r s' h
    obtain ⟨ys, hz, rfl⟩ := C54_elements_sound hs hk hj hx hpass (by
      intro x hm s1 s2 e _ hp
      rcases hst x hm with ⟨y, h⟩ | ⟨e', h, he⟩
      · rw [h] at hp; cases hp
      · rw [h] at hp; cases hp; exact he) h
    refine ⟨ys, ?_, by simp [hset]⟩
    refine hz.imp_mem (fun x hm y _ hxy => ?_)
    obtain ⟨s1, s2, _, hp⟩ := hxy
    rcases hst x hm with ⟨y', h⟩ | ⟨e', h, he⟩
    · rw [h] at hp ⊢; cases hp; rfl
    · rw [h] at hp; cases hp
  constructor
  · rintro ⟨s', h⟩; exact sound r s' h
  · rintro ⟨ys, hz, rfl⟩
    obtain ⟨r, s', h⟩ := C54_elements_complete hs hk hj hv hx hpass (by
      intro x hm s1 he
      obtain ⟨y, _, hy⟩ := hz.mem_left hm
      exact ⟨y, s1, by rw [hy]; exact .ret, fun h => by rw [hset] at h; cases h⟩)
    obtain ⟨ys', hz', rfl⟩ := sound r s' h
    have := zip2_functional (fun a b b' (h1 : W.customLoad j a et = .ret b) (h2 : W.customLoad j a et = .ret b') => by
      rw [h1] at h2; cases h2; rfl) hz hz'
    subst this
    exact ⟨s', h⟩

/-- A program with handlers of the user: number 1 returns None for everything; its condition accepts `Path` and `str`. -/
def Sample.WC : World :=
  { Sample.W with
    customCond := fun _ t => .ok (t == .strcons "Path" || t == .prim .str)
    customLoad := fun _ _ _ => .ret .none }
/-- `l.handlers.insert(0, ...)` -/
def Sample.CC : Config := { Sample.C with handlers := (.custom 1, .custom 1) :: defaultHandlers }

/-- The hypotheses of `C54_elements`, for `List[Path]`. -/
example : pick Sample.WC Sample.CC (.coll .list (.strcons "Path")) = .ok (collHandler .list) ∧
    pick Sample.WC Sample.CC (.strcons "Path") = .ok (.custom 1) ∧ (∀ x, ¬ PassThrough Sample.CC (.strcons "Path") x) ∧
    ∀ x, ∃ y, Sample.WC.customLoad 1 x (.strcons "Path") = .ret y := by
  refine ⟨rfl, rfl, ?_, fun x => ⟨_, rfl⟩⟩
  rintro x (⟨p, h, _⟩ | ⟨ts, h, _⟩) <;> cases h

example : (load Sample.WC Sample.CC 5 (.list [.str "a"]) (.coll .list (.strcons "Path")) (fresh [])).val? = some (.list [.none]) := by decide

/-- The hypotheses of `C54_elements_sound` and `C54_elements_complete`, for `List[Path]` and a handler that calls the loader back:
`load(["5", "5"], List[Path]) == [5, 5]` when paths are loaded as integers. -/
example : pick Sample.WB Sample.CB (.coll .list (.strcons "Path")) = .ok (collHandler .list) ∧
    pick Sample.WB Sample.CB (.strcons "Path") = .ok (.custom 1) ∧
    (∀ s1, Ext Sample.WB Sample.CB (fresh []) s1 → ∃ y s2, Plays (Answers Sample.WB Sample.CB) (Sample.WB.customLoad 1 (.str "5") (.strcons "Path")) s1 (.ok y) s2) ∧
    ∀ s1 s2 e, Ext Sample.WB Sample.CB (fresh []) s1 →
      ¬ Plays (Answers Sample.WB Sample.CB) (Sample.WB.customLoad 1 (.str "5") (.strcons "Path")) s1 (.error e) s2 := by
  have hl : ∀ s1, Ext Sample.WB Sample.CB (fresh []) s1 → ∀ n, loadWith Sample.WB Sample.CB (run Sample.WB Sample.CB (n + 1)) (.str "5") (.prim .int) none s1 =
      .ok (.int 5) (cacheReg Sample.WB (.prim .int) .basicload s1) := by
    intro s1 he n
    have hc : Coh Sample.WB Sample.CB s1 := ((Reachable.new (some []) []).coh : Coh Sample.WB Sample.CB (fresh [])).ext he
    rw [loadWith_eq hc, show pick Sample.WB Sample.CB (.prim .int) = .ok .basicload from rfl]
    rfl
  refine ⟨rfl, rfl, fun s1 he => ?_, fun s1 s2 e he hp => ?_⟩
  · exact ⟨.int 5, _, .call (o := .ok (.int 5)) ⟨1, hl s1 he 0⟩ .ret⟩
  · cases hp with
    | call h1 h2 =>
      rename_i o s3
      obtain ⟨n, hn⟩ := h1
      cases n with
      | zero =>
        have hc : Coh Sample.WB Sample.CB s1 := ((Reachable.new (some []) []).coh : Coh Sample.WB Sample.CB (fresh [])).ext he
        rw [loadWith_eq hc, show pick Sample.WB Sample.CB (.prim .int) = .ok .basicload from rfl] at hn
        cases o <;> cases hn
      | succ n =>
        rw [hl s1 he n] at hn
        cases o with
        | ok r => cases h2
        | error e => cases hn
example : (load Sample.WB Sample.CB 9 (.list [.str "5", .str "5"]) (.coll .list (.strcons "Path")) (fresh [])).val? = some (.list [.int 5, .int 5]) := by decide

/-- A handler of the user for `str` is not used for the elements of `List[str]` that are already strings: with a handler that returns None for
everything, `load("a", str)` returns None, and `load(["a"], List[str])` returns `["a"]`. -/
theorem C54_basic_counterexample :
    (∃ s', Loads Sample.WC Sample.CC (fresh []) (.str "a") (.prim .str) .none s') ∧
    ∃ s', Loads Sample.WC Sample.CC (fresh []) (.list [.str "a"]) (.coll .list (.prim .str)) (.list [.str "a"]) s' :=
  ⟨⟨_, 3, rfl⟩, ⟨_, 3, rfl⟩⟩

end TL
