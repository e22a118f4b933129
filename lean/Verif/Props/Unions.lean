import Verif.Lemmas.Union
import Verif.Lemmas.Tags
import Verif.Sample
/-!
# C09–C14, C50: unions

Members are loaded while the caches of the loader fill up, so "member `u` accepts `v`" is said of a state `s1` later than the
initial state `s` (`Ext W C s s1`).
-/

namespace TL

variable {W : World} {C : Config}

/-! ## Specification -/

/-- The exact type of the value is a basic type and a member of the union. -/
def ExactBasic (C : Config) (v : Val) (ts : List Ty) : Prop := C.isBasic (typeOf v) = true ∧ typeOf v ∈ ts

/-- At some moment of this load (a state later than `s`), loading `v` into `u` returns `r`. -/
def AcceptsAs (W : World) (C : Config) (s : LState) (v : Val) (u : Ty) (r : Val) : Prop :=
  ∃ s1 s2, Ext W C s s1 ∧ Loads W C s1 v u r s2

/-- At some moment of this load, loading `v` into `u` raises a TypedloadException. -/
def Refuses (W : World) (C : Config) (s : LState) (v : Val) (u : Ty) : Prop :=
  ∃ s1 s2 e, Ext W C s s1 ∧ Raises W C s1 v u e s2 ∧ e.isTL = true

/-- The order of preference without discriminator: other types first, basic types last, in declaration order. -/
def preference (C : Config) (ts : List Ty) : List Ty :=
  ts.filter (fun t => !C.isBasic t) ++ ts.filter (fun t => C.isBasic t)

/-- The data designates member `p` of the union: every member has a Literal field of the same name `k`, the data has a value
under `k` (None if absent), and it equals a literal of `p`. -/
def Designates (W : World) (v : Val) (ts : List Ty) (p : Ty) : Prop :=
  ∃ kvs k l, v = .dict kvs ∧ p ∈ ts ∧ (∀ u ∈ ts, HasLiteralField W u k) ∧ LiteralField W p k l ∧
    (∃ l', pyEq l' ((dget kvs (.str k)).getD .none) = true ∧ (l' = l ∨ pyEq l' l = true))

/-- The orders in which the members may be tried. -/
def TryOrder (W : World) (C : Config) (v : Val) (ts : List Ty) (order : List Ty) : Prop :=
  order = preference C ts ∨ ∃ p, Designates W v ts p ∧ order = p :: (preference C ts).erase p

/-- The data holds an unhashable value under a name that is a Literal field of every member. -/
def UnhashableTag (W : World) (v : Val) (ts : List Ty) : Prop :=
  ∃ kvs k x, v = .dict kvs ∧ (∀ u ∈ ts, HasLiteralField W u k) ∧ dget kvs (.str k) = some x ∧ W.hash x = false

/-! ## The order -/

/-- Entries of the table: the key comes from a literal, and the member owns an equal literal. -/
def TableOK (W : World) (key : String) (ts : List Ty) (table : List (Val × Ty)) : Prop :=
  ∀ l' p, (l', p) ∈ table → p ∈ ts ∧ ∃ l, LiteralField W p key l ∧ (l' = l ∨ pyEq l' l = true)

theorem TableOK.dset {key : String} {ts : List Ty} {p : Ty} {l : Val} (hp : p ∈ ts) (hl : LiteralField W p key l)
    (table : List (Val × Ty)) (h : TableOK W key ts table) : TableOK W key ts (dset table l p) := by
  induction table with
  | nil =>
    intro l' q hm
    simp only [TL.dset, List.mem_singleton, Prod.mk.injEq] at hm
    obtain ⟨rfl, rfl⟩ := hm; exact ⟨hp, _, hl, Or.inl rfl⟩
  | cons x table ih =>
    obtain ⟨a, b⟩ := x
    simp only [TL.dset]
    split
    · rename_i he
      intro l' q hm
      rcases List.mem_cons.1 hm with hm | hm
      · cases hm; exact ⟨hp, l, hl, Or.inr he⟩
      · exact h l' q (List.mem_cons_of_mem _ hm)
    · intro l' q hm
      rcases List.mem_cons.1 hm with hm | hm
      · cases hm; exact h _ _ (by simp)
      · exact ih (fun l'' q' h' => h _ _ (List.mem_cons_of_mem _ h')) l' q hm

theorem TableOK.fold {key : String} {ts : List Ty} {p : Ty} (hp : p ∈ ts) (ls : List Val) :
    ∀ table, TableOK W key ts table → (∀ l ∈ ls, LiteralField W p key l) →
    TableOK W key ts (ls.foldl (fun acc l => TL.dset acc l p) table) := by
  induction ls with
  | nil => intro t h _; exact h
  | cons l ls ih => intro t h hl; exact ih _ (TableOK.dset hp (hl l (by simp)) t h) (fun l' h' => hl l' (by simp [h']))

theorem literalTable_ok (rew : List Nat) (key : String) (ts : List Ty) :
    TableOK W key ts (literalTable key (ts.map (fun t => (t, discriminatorliterals W rew t)))) := by
  have : ∀ (us : List Ty) table, (∀ u ∈ us, u ∈ ts) → TableOK W key ts table →
      TableOK W key ts ((us.map (fun t => (t, discriminatorliterals W rew t))).foldl
        (fun acc p => ((aget p.2 key).getD []).foldl (fun acc l => TL.dset acc l p.1) acc) table) := by
    intro us
    induction us with
    | nil => intro t _ h; exact h
    | cons u us ih =>
      intro t hu h
      simp only [List.map_cons, List.foldl_cons]
      refine ih _ (fun x hx => hu x (by simp [hx])) (TableOK.fold (hu u (by simp)) _ t h ?_)
      intro l hl
      cases ha : aget (discriminatorliterals W rew u) key with
      | none => rw [ha] at hl; cases hl
      | some vs =>
        rw [ha] at hl
        exact (discriminatorliterals_field (aget_mem ha)).2 l hl
  unfold literalTable
  exact this ts [] (fun _ h => h) (fun _ _ h => by cases h)

theorem dget_mem {α : Type} {kvs : List (Val × α)} {k : Val} {x : α} (h : dget kvs k = some x) :
    ∃ k', (k', x) ∈ kvs ∧ pyEq k' k = true := by
  unfold dget at h
  cases hf : kvs.find? (fun p => pyEq p.1 k) with
  | none => simp [hf] at h
  | some p =>
    simp [hf] at h
    exact ⟨p.1, by rw [← h]; exact List.mem_of_find?_eq_some hf, by simpa using List.find?_some hf⟩

theorem post_discCached {ts : List Ty} {s : LState} (hc : Coh W C s) :
    Post (discCached W ts) s (fun d s' => Ext W C s s' ∧ ∃ rew us, us.Perm ts ∧ d = mkDisc W rew us) (fun _ _ => False) := by
  have he := PresE.unionOrder (W := W) (C := C)
  unfold discCached
  simp only [post_bind, post_get]
  split
  · rename_i d hd
    obtain ⟨ts', rew, h1, h2, _⟩ := hc.disc _ _ hd
    have hp : ts'.Perm ts := ((W.unionKey_perm ts').symm.trans (by injection h1 with h1; rw [← h1])).trans (W.unionKey_perm ts)
    exact ⟨Ext.refl s, rew, ts', hp, h2⟩
  · rename_i hd
    simp only [post_bind, post_modify, post_pure]
    exact ⟨Ext.disc hd, s.tdRew, ts, .refl _, rfl⟩

theorem post_unionOrder {v : Val} {ts : List Ty} {s : LState} (hc : Coh W C s) :
    Post (unionOrder W C v ts) s (fun order s' => Ext W C s s' ∧ TryOrder W C v ts order)
      (fun e s' => Ext W C s s' ∧ e.isTL = false ∧ UnhashableTag W v ts) := by
  unfold unionOrder
  split
  · rename_i kvs
    rw [post_bind]
    refine (post_discCached (C := C) hc).mono ?_ (fun _ _ h => h.elim)
    rintro d s' ⟨he, rew, us, hperm, hd⟩
    split
    · exact ⟨he, Or.inl rfl⟩
    · rename_i key table
      obtain ⟨hk, htab⟩ := mkDisc_key hd.symm
      have hk : ∀ u ∈ ts, HasLiteralField W u key := fun u hu => hk u (hperm.mem_iff.2 hu)
      split
      · exact ⟨he, Or.inl rfl⟩
      split
      · split
        · rename_i p hp
          obtain ⟨l', hmem, heq⟩ := dget_mem hp
          rw [htab] at hmem
          obtain ⟨hpt, l, hl, hll⟩ := literalTable_ok rew key us l' p hmem
          have hpt := hperm.mem_iff.1 hpt
          exact ⟨he, Or.inr ⟨p, ⟨kvs, key, l, rfl, hpt, hk, hl, l', heq, hll⟩, rfl⟩⟩
        · exact ⟨he, Or.inl rfl⟩
      · rename_i hh
        refine ⟨he, rfl, kvs, key, ?_⟩
        cases hx : dget kvs (.str key) with
        | none => rw [hx] at hh; exact absurd rfl hh
        | some x => exact ⟨x, rfl, hk, rfl, by rw [hx] at hh; simpa using hh⟩
  · exact ⟨Ext.refl s, Or.inl rfl⟩

theorem preference_perm (C : Config) (ts : List Ty) : (preference C ts).Perm ts := by
  unfold preference
  have := List.filter_append_perm (fun t => !C.isBasic t) ts
  simpa using this

theorem TryOrder.perm {v : Val} {ts order : List Ty} (h : TryOrder W C v ts order) : order.Perm ts := by
  rcases h with rfl | ⟨p, ⟨kvs, k, l, rfl, hp, _⟩, rfl⟩
  · exact preference_perm C ts
  · have hm : p ∈ preference C ts := (preference_perm C ts).mem_iff.2 hp
    exact (List.perm_cons_erase hm).symm.trans (preference_perm C ts)

/-! ## Characterisation of a union load -/

/-- How a union load that returns went. -/
def UnionOk (W : World) (C : Config) (s : LState) (v : Val) (ts : List Ty) (r : Val) : Prop :=
  (ExactBasic C v ts ∧ r = v) ∨ (¬ ExactBasic C v ts ∧ ∃ order es, TryOrder W C v ts order ∧
    LoopSpec W C s v (.union ts) order 0 .none [] (1, r, es))

/-- How a union load that raises went (`e` is the exception raised by the handler). -/
def UnionErr (W : World) (C : Config) (s : LState) (v : Val) (ts : List Ty) (e : Exc) : Prop :=
  ¬ ExactBasic C v ts ∧ (
  (e.isTL = false ∧ (UnhashableTag W v ts ∨ ∃ u ∈ ts, ∃ s1 e1 s2, Ext W C s s1 ∧ Raises W C s1 v u e1 s2 ∧ e1.isTL = false)) ∨
  (∃ order c r es, TryOrder W C v ts order ∧ LoopSpec W C s v (.union ts) order 0 .none [] (c, r, es) ∧
    ((c = 0 ∧ e = mkExcSubs .tlValue (.unionNone (.union ts)) v (.union ts) es) ∨
     (2 ≤ c ∧ e = mkExcSubs .tlType (.unionMany (.union ts) c) v (.union ts) es))))

theorem Outcome.back {s s1 : LState} {v : Val} {t u : Ty} {o : Except Exc Val} (he : Ext W C s s1)
    (h : Outcome W C s1 v t u o) : Outcome W C s v t u o := by
  cases o with
  | ok r => obtain ⟨a, b, c, d⟩ := h; exact ⟨a, b, he.trans c, d⟩
  | error e => obtain ⟨a, b, x, y, c, d⟩ := h; exact ⟨a, b, x, y, he.trans c, d⟩

theorem LoopSpec.back {s s1 : LState} {v : Val} {t : Ty} {us : List Ty} {c : Nat} {r : Val} {es : List Exc}
    {res : Nat × Val × List Exc} (he : Ext W C s s1) (h : LoopSpec W C s1 v t us c r es res) :
    LoopSpec W C s v t us c r es res := by
  obtain ⟨pre, post, os, h1, h2, rest⟩ := h
  exact ⟨pre, post, os, h1, h2.mono (fun _ _ h => h.back he), rest⟩

theorem post_unionload {n : Nat} {v : Val} {ts : List Ty} {s : LState} (hc : Coh W C s) :
    Post (unionload W C (run W C n) v (.union ts)) s (fun r _ => UnionOk W C s v ts r) (fun e _ => UnionErr W C s v ts e) := by
  unfold unionload
  dsimp only
  by_cases hx : ExactBasic C v ts
  · rw [if_pos (by simpa [ExactBasic] using hx)]
    exact Or.inl ⟨hx, rfl⟩
  · rw [if_neg (by simpa [ExactBasic] using hx)]
    simp only [post_bind]
    refine (post_unionOrder (v := v) (ts := ts) hc).mono ?_ ?_
    · rintro order s1 ⟨he, ho⟩
      refine (post_unionTry (n := n) (v := v) (t := .union ts) (s0 := s) order 0 .none [] s1 he (hc.ext he)).mono ?_ ?_
      · rintro ⟨c, r, es⟩ s2 ⟨hl, _⟩
        dsimp only
        split
        · rename_i h; subst h; exact Or.inr ⟨hx, order, es, ho, hl⟩
        · split
          · rename_i h; exact ⟨hx, Or.inr ⟨order, c, r, es, ho, hl, Or.inl ⟨h, rfl⟩⟩⟩
          · exact ⟨hx, Or.inr ⟨order, c, r, es, ho, hl, Or.inr ⟨by omega, rfl⟩⟩⟩
      · rintro e s2 ⟨h1, u, hu, s1, e1, a, b, c⟩
        exact ⟨hx, Or.inl ⟨h1, Or.inr ⟨u, (ho.perm.mem_iff).1 hu, s1, e1, s2, a, b, c⟩⟩⟩
    · rintro e s1 ⟨_, h1, h2⟩
      exact ⟨hx, Or.inl ⟨h1, Or.inl h2⟩⟩

theorem UnionOk.back {s s1 : LState} {v : Val} {ts : List Ty} {r : Val} (he : Ext W C s s1) (h : UnionOk W C s1 v ts r) :
    UnionOk W C s v ts r := by
  rcases h with h | ⟨hx, order, es, ho, hl⟩
  · exact Or.inl h
  · exact Or.inr ⟨hx, order, es, ho, hl.back he⟩

theorem UnionErr.back {s s1 : LState} {v : Val} {ts : List Ty} {e : Exc} (he : Ext W C s s1) (h : UnionErr W C s1 v ts e) :
    UnionErr W C s v ts e := by
  rcases h with ⟨hx, ⟨h, h' | ⟨u, hu, s1, e1, s2, a, b⟩⟩ | ⟨order, c, r, es, ho, hl, rest⟩⟩
  · exact ⟨hx, Or.inl ⟨h, Or.inl h'⟩⟩
  · exact ⟨hx, Or.inl ⟨h, Or.inr ⟨u, hu, s1, e1, s2, he.trans a, b⟩⟩⟩
  · exact ⟨hx, Or.inr ⟨order, c, r, es, ho, hl.back he, rest⟩⟩

theorem union_loads {s s' : LState} {ts : List Ty} (hd : C.Usual W (.union ts)) (hc : Coh W C s) {v r : Val}
    (h : Loads W C s v (.union ts) r s') : UnionOk W C s v ts r := by
  obtain ⟨n, hh, hp, hr⟩ := (loads_iff hc).1 h
  rw [hd.union] at hp; cases hp
  have he : Ext W C s (cacheReg W (.union ts) .unionload s) := cacheReg_ext (hd.union)
  cases n with
  | zero => cases hr
  | succ n => exact ((post_unionload (hc.ext he)).ok hr).back he

theorem union_raises {s s' : LState} {ts : List Ty} (hd : C.Usual W (.union ts)) (hc : Coh W C s) {v : Val} {e : Exc}
    (h : Raises W C s v (.union ts) e s') : ∃ e', e = loadExc v (.union ts) none e' ∧ UnionErr W C s v ts e' := by
  rcases (raises_iff hc).1 h with ⟨n, hh, e', hp, hr, rfl⟩ | ⟨c, hp, _⟩
  · rw [hd.union] at hp; cases hp
    have he : Ext W C s (cacheReg W (.union ts) .unionload s) := cacheReg_ext (hd.union)
    cases n with
    | zero => cases hr
    | succ n => exact ⟨e', rfl, ((post_unionload (hc.ext he)).err hr).back he⟩
  · rw [hd.union] at hp; cases hp

/-- The computation always returns or raises. -/
def NoDiv {σ ε α : Type} (m : M σ ε α) : Prop := ∀ s, m s ≠ .div

theorem NoDiv.pure {σ ε α : Type} (a : α) : NoDiv (pure a : M σ ε α) := fun s => by simp
theorem NoDiv.throw {σ ε α : Type} (e : ε) : NoDiv (M.throw e : M σ ε α) := fun s => by simp
theorem NoDiv.get {σ ε : Type} : NoDiv (M.get : M σ ε σ) := fun s => by simp
theorem NoDiv.modify {σ ε : Type} (f : σ → σ) : NoDiv (M.modify f : M σ ε Unit) := fun s => by simp
theorem NoDiv.bind {σ ε α β : Type} {m : M σ ε α} {f : α → M σ ε β} (h : NoDiv m) (hf : ∀ a, NoDiv (f a)) :
    NoDiv (m >>= f) := by
  intro s; rw [M.bind_apply]
  cases hm : m s with
  | div => exact absurd hm (h s)
  | err e s' => simp
  | ok a s' => exact hf a s'

theorem NoDiv.unionOrder (v : Val) (ts : List Ty) : NoDiv (unionOrder W C v ts) := by
  unfold TL.unionOrder TL.discCached
  repeat' (first | exact NoDiv.pure _ | exact NoDiv.throw _ | exact NoDiv.get | exact NoDiv.modify _ | refine NoDiv.bind ?_ (fun _ => ?_) | split)

/-- A union load terminates if its members do. -/
theorem union_terminates {s : LState} {ts : List Ty} (hd : C.Usual W (.union ts)) (hc : Coh W C s) {v : Val}
    (ht : ∀ u ∈ ts, Terminates W C s v u) :
    (∃ r s', Loads W C s v (.union ts) r s') ∨ (∃ e s', Raises W C s v (.union ts) e s') := by
  have hp := hd.union
  have he : Ext W C s (cacheReg W (.union ts) .unionload s) := cacheReg_ext hp
  have : ∃ n, unionload W C (run W C n) v (.union ts) (cacheReg W (.union ts) .unionload s) ≠ .div := by
    unfold unionload
    dsimp only
    split
    · exact ⟨0, by simp⟩
    · have ho := post_unionOrder (v := v) (ts := ts) (hc.ext he)
      cases hm : unionOrder W C v ts (cacheReg W (.union ts) .unionload s) with
      | div =>
        exact absurd hm (NoDiv.unionOrder v ts _)
      | err e s' => exact ⟨0, by simp [M.bind_apply, hm]⟩
      | ok order s' =>
        obtain ⟨he', ho'⟩ := ho.ok hm
        obtain ⟨n, hn⟩ := unionTry_terminates (t := .union ts) order 0 .none [] s' ((hc.ext he).ext he')
          (fun u hu => (ht u (ho'.perm.mem_iff.1 hu)).later (he.trans he'))
        refine ⟨n, ?_⟩
        simp only [M.bind_apply, hm]
        cases hu : unionTry W C (run W C n) v (.union ts) order 0 .none [] s' with
        | div => exact absurd hu hn
        | err => simp
        | ok x s2 =>
          obtain ⟨c, r, es⟩ := x
          dsimp only; (repeat' split) <;> simp
  obtain ⟨n, hn⟩ := this
  cases hr : unionload W C (run W C n) v (.union ts) (cacheReg W (.union ts) .unionload s) with
  | div => exact absurd hr hn
  | ok r s' => left; exact ⟨r, s', (loads_iff hc).2 ⟨n + 1, _, hp, hr⟩⟩
  | err e s' => right; exact ⟨_, s', (raises_iff hc).2 (Or.inl ⟨n + 1, _, e, hp, hr, rfl⟩)⟩


/-! ## Facts about the loop -/

theorem Outcome.accepts {s : LState} {v r : Val} {t u : Ty} (h : Outcome W C s v t u (.ok r)) : AcceptsAs W C s v u r := h
theorem Outcome.refuses {s : LState} {v : Val} {t u : Ty} {x : Exc} (h : Outcome W C s v t u (.error x)) :
    Refuses W C s v u ∧ x.isTL = true ∧ ∃ rest, x.trace = ⟨v, t, some (.union u)⟩ :: rest := by
  obtain ⟨s1, s2, e, e1, a, b, c, d, rfl⟩ := h
  exact ⟨⟨s1, s2, e1, a, b, c⟩, by simpa using d, e.trace, by simp⟩

theorem zip_oks_nil {s : LState} {v : Val} {t : Ty} {us : List Ty} {os : List (Except Exc Val)}
    (h : Zip2 (Outcome W C s v t) us os) (h0 : oks os = []) :
    (∀ u ∈ us, Refuses W C s v u) ∧
    Zip2 (fun u (x : Exc) => x.isTL = true ∧ ∃ rest, x.trace = ⟨v, t, some (.union u)⟩ :: rest) us (errs os) := by
  induction h with
  | nil => exact ⟨fun _ h => (by cases h), .nil⟩
  | cons ho _ ih =>
    rename_i u o us os _
    cases o with
    | ok r => simp at h0
    | error x =>
      obtain ⟨i1, i2⟩ := ih (by simpa using h0)
      obtain ⟨a, b⟩ := ho.refuses
      refine ⟨fun w hw => ?_, .cons b i2⟩
      rcases List.mem_cons.1 hw with rfl | hw
      · exact a
      · exact i1 w hw

/-- Exactly one of the outcomes is a success: the list of members splits around it. -/
theorem zip_oks_one {s : LState} {v r : Val} {t : Ty} {us : List Ty} {os : List (Except Exc Val)}
    (h : Zip2 (Outcome W C s v t) us os) (h0 : oks os = [r]) :
    ∃ pre u post, us = pre ++ u :: post ∧ AcceptsAs W C s v u r ∧ (∀ w ∈ pre, Refuses W C s v w) ∧
      (∀ w ∈ post, Refuses W C s v w) ∧ (os.getLast? = some (.ok r) → post = []) := by
  induction h with
  | nil => simp at h0
  | cons ho htail ih =>
    rename_i u o us os
    cases o with
    | ok x =>
      simp at h0
      obtain ⟨rfl, h0⟩ := h0
      refine ⟨[], u, us, rfl, ho, fun _ h => (by cases h), (zip_oks_nil htail h0).1, ?_⟩
      intro hl
      cases htail with
      | nil => rfl
      | cons ho' htail' =>
        rename_i u' o' us' os'
        exfalso
        rw [getLast?_cons_ne _ (by simp)] at hl
        have := List.mem_of_getLast? hl
        have hm : ∀ os : List (Except Exc Val), Except.ok x ∈ os → x ∈ oks os := by
          intro os hx; unfold oks; rw [List.mem_filterMap]; exact ⟨_, hx, rfl⟩
        have := hm _ this
        rw [h0] at this; cases this
    | error x =>
      obtain ⟨pre, w, post, rfl, a, b, c, d⟩ := ih (by simpa using h0)
      refine ⟨u :: pre, w, post, rfl, a, ?_, c, ?_⟩
      · intro z hz
        rcases List.mem_cons.1 hz with rfl | hz
        · exact ho.refuses.1
        · exact b z hz
      · intro hl
        apply d
        have hne : os ≠ [] := by intro h; subst h; simp at hl
        rw [getLast?_cons_ne _ hne] at hl; exact hl

theorem length_one {α : Type} {l : List α} (h : l.length = 1) : ∃ x, l = [x] := by
  match l, h with
  | [x], _ => exact ⟨x, rfl⟩

/-- The shape of a successful member loop. -/
theorem loop_one {s : LState} {v r : Val} {t : Ty} {us : List Ty} {es : List Exc}
    (h : LoopSpec W C s v t us 0 .none [] (1, r, es)) :
    ∃ pre u post, us = pre ++ u :: post ∧ AcceptsAs W C s v u r ∧ (∀ w ∈ pre, Refuses W C s v w) ∧
      (C.uniondebugconflict = true → ∀ w ∈ post, Refuses W C s v w) := by
  obtain ⟨pre, post, os, rfl, hz, h1, h2, h3, h4, h5⟩ := h
  simp only [Nat.zero_add] at h1
  obtain ⟨x, hx⟩ := length_one h1.symm
  rw [hx] at h3
  simp at h3
  subst h3
  obtain ⟨pre', u, post', rfl, a, b, c, d⟩ := zip_oks_one hz hx
  refine ⟨pre', u, post' ++ post, by simp, a, b, fun hdbg w hw => ?_⟩
  rw [h4 hdbg] at hw
  exact c w (by simpa using hw)

/-! ## C09 -/

/-- **C09** A value returned by a union load is either the value itself, when its exact type is a basic member, or what loading
into one of the members produced. -/
theorem C09_union_sound {s s' : LState} {ts : List Ty} (hd : C.Usual W (.union ts)) (hs : Reachable W C s) {v r : Val}
    (h : Loads W C s v (.union ts) r s') : (ExactBasic C v ts ∧ r = v) ∨ ∃ u ∈ ts, AcceptsAs W C s v u r := by
  rcases union_loads hd hs.coh h with h | ⟨_, order, es, ho, hl⟩
  · exact Or.inl h
  · obtain ⟨pre, u, post, rfl, a, _⟩ := loop_one hl
    exact Or.inr ⟨u, ho.perm.mem_iff.1 (by simp), a⟩

example : Loads Sample.W Sample.C (fresh []) (.dict [(.str "tag", .str "two"), (.str "p", .int 3)])
    (.union [.obj 5, .obj 6]) (.inst 6 [("tag", .str "two"), ("p", .int 3)])
    ((load Sample.W Sample.C 6 (.dict [(.str "tag", .str "two"), (.str "p", .int 3)]) (.union [.obj 5, .obj 6])
      (fresh [])).state?.getD {}) := ⟨6, by rfl⟩

/-! ## C10 -/

/-- **C10** (partial). With `uniondebugconflict` off: if some member accepts the value (whatever the caches hold), the members
terminate and fail only with TypedloadExceptions, and no shared Literal field of the data is unhashable, then the
union load succeeds.  What is missing: members that raise something else (see the counterexamples below). -/
theorem C10_union_complete_partial {s : LState} {ts : List Ty} (hd : C.Usual W (.union ts)) (hs : Reachable W C s) {v : Val} {p : Ty}
    (hdbg : C.uniondebugconflict = false) (hp : p ∈ ts)
    (hacc : ∀ s1, Ext W C s s1 → ∃ r s2, Loads W C s1 v p r s2)
    (hterm : ∀ u ∈ ts, Terminates W C s v u)
    (htl : ∀ u ∈ ts, ∀ s1 e s2, Ext W C s s1 → Raises W C s1 v u e s2 → e.isTL = true)
    (htag : ¬ UnhashableTag W v ts) :
    ∃ r s', Loads W C s v (.union ts) r s' := by
  rcases union_terminates hd hs.coh hterm with h | ⟨e, s', h⟩
  · exact h
  · exfalso
    obtain ⟨e', rfl, hx, ⟨_, hu | ⟨u, hu, s1, e1, s2, a, b, c⟩⟩ | ⟨order, c, r, es, ho, hl, hc⟩⟩ := union_raises hd hs.coh h
    · exact htag hu
    · rw [htl u hu s1 e1 s2 a b] at c; cases c
    · obtain ⟨pre, post, os, rfl, hz, h1, h2, h3, h4, h5⟩ := hl
      simp only [Nat.zero_add] at h1
      rcases h5 hdbg with ⟨rfl, h0⟩ | ⟨x, hx', _⟩
      · have hm : p ∈ pre ++ [] := ho.perm.mem_iff.2 hp
        obtain ⟨s1, s2, e, he, hr, _⟩ := (zip_oks_nil hz h0).1 p (by simpa using hm)
        obtain ⟨r', s3, hl'⟩ := hacc s1 he
        exact hl'.not_raises hr
      · rw [hx'] at h1; simp at h1
        rcases hc with ⟨h, _⟩ | ⟨h, _⟩ <;> omega

/-- Counterexample to the unrestricted C10: `True` is accepted by `int`, but not by `Union[Tuple[int, int], int]`, where
`len(True)` raises a TypeError that the union does not catch. -/
theorem C10_tuple_counterexample :
    (∃ r s', Loads Sample.W Sample.C (fresh []) (.bool true) (.prim .int) r s') ∧
    (∃ e s', Raises Sample.W Sample.C (fresh []) (.bool true) (.union [.tuple [.prim .int, .prim .int], .prim .int]) e s' ∧
      e.isTL = false) :=
  ⟨⟨_, _, 2, rfl⟩, ⟨_, _, ⟨3, rfl⟩, rfl⟩⟩

/-- Classes with a renamed discriminator: `tag: Literal['one'] = field(metadata={'name': 'kind'})`. -/
def mangledTagW : World := { Sample.W with cls := fun c =>
  { kind := .dataclass, name := "M" ++ toString c, fields :=
    [ { name := "tag", ty := .lit [.int c], metadata := [("name", "kind")] } ] } }

/-- Counterexample to the unrestricted C10: a list under the Python name of a renamed discriminator field makes the union raise,
although a member accepts the data (it ignores that key). -/
theorem C10_tag_counterexample :
    (∃ r s', Loads mangledTagW Sample.C (fresh []) (.dict [(.str "kind", .int 0), (.str "tag", .list [])]) (.obj 0) r s') ∧
    (∃ e s', Raises mangledTagW Sample.C (fresh []) (.dict [(.str "kind", .int 0), (.str "tag", .list [])])
      (.union [.obj 0, .obj 1]) e s' ∧ e.isTL = false) :=
  ⟨⟨_, _, 5, rfl⟩, ⟨_, _, ⟨5, rfl⟩, rfl⟩⟩

/-! ## C11 -/

/-- **C11** A value whose exact type is a basic member is returned unchanged. -/
theorem C11_exact_basic {s : LState} {ts : List Ty} (hd : C.Usual W (.union ts)) (hs : Reachable W C s) {v : Val}
    (h : ExactBasic C v ts) : ∃ s', Loads W C s v (.union ts) v s' := by
  refine ⟨cacheReg W (.union ts) .unionload s, (loads_iff hs.coh).2 ⟨1, _, hd.union, ?_⟩⟩
  simp only [run, step, unionload]
  rw [if_pos (by simpa [ExactBasic] using h)]; rfl

/-- **C11** Otherwise the members are tried in an order that is a permutation of the members — other types before basic types
and in declaration order, except that a member designated by a Literal discriminator comes first — and the result is the one of the first
member that accepts, all earlier ones having refused. -/
theorem C11_first_accepting {s s' : LState} {ts : List Ty} (hd : C.Usual W (.union ts)) (hs : Reachable W C s) {v r : Val}
    (hx : ¬ ExactBasic C v ts) (h : Loads W C s v (.union ts) r s') :
    ∃ order pre u post, TryOrder W C v ts order ∧ order.Perm ts ∧ order = pre ++ u :: post ∧
      (∀ w ∈ pre, Refuses W C s v w) ∧ AcceptsAs W C s v u r := by
  rcases union_loads hd hs.coh h with h | ⟨_, order, es, ho, hl⟩
  · exact absurd h.1 hx
  · obtain ⟨pre, u, post, rfl, a, b, _⟩ := loop_one hl
    exact ⟨_, pre, u, post, ho, ho.perm, rfl, b, a⟩

/-- **C11** In the order of preference, a basic type never precedes another type. -/
theorem C11_basic_last (ts pre post : List Ty) (u : Ty) (h : preference C ts = pre ++ u :: post)
    (hb : C.isBasic u = true) : ∀ w ∈ post, C.isBasic w = true := by
  unfold preference at h
  rcases List.append_eq_append_iff.1 h with ⟨a, h1, h2⟩ | ⟨a, h1, h2⟩
  · intro w hw
    have : w ∈ ts.filter (fun t => C.isBasic t) := by rw [h2]; simp [hw]
    exact (List.mem_filter.1 this).2
  · cases a with
    | nil =>
      intro w hw
      have : w ∈ ts.filter (fun t => C.isBasic t) := by rw [← List.nil_append (ts.filter _), ← h2]; simp [hw]
      exact (List.mem_filter.1 this).2
    | cons x a =>
      exfalso
      injection h2 with h2 _
      subst h2
      have : u ∈ ts.filter (fun t => !C.isBasic t) := by rw [h1]; simp
      simp [List.mem_filter, hb] at this

/-- **C11** If one member at most accepts the value, its result is the union's, whatever the order. -/
theorem C11_unique {s s' : LState} {ts : List Ty} (hd : C.Usual W (.union ts)) (hs : Reachable W C s) {v r : Val} {p : Ty}
    (hx : ¬ ExactBasic C v ts) (hu : ∀ u ∈ ts, u ≠ p → ∀ r', ¬ AcceptsAs W C s v u r')
    (h : Loads W C s v (.union ts) r s') : AcceptsAs W C s v p r := by
  rcases C09_union_sound hd hs h with h | ⟨u, hu', ha⟩
  · exact absurd h.1 hx
  · by_cases he : u = p
    · subst he; exact ha
    · exact absurd ha (hu u hu' he r)

/-- Hypotheses met: `Union[int, L1]` tries L1 before int, and `"5"` (not of exact type int) loads as int. -/
example : preference Sample.C [.prim .int, .obj 5] = [.obj 5, .prim .int] ∧
    ¬ ExactBasic Sample.C (.str "5") [.prim .int, .obj 5] ∧
    (load Sample.W Sample.C 5 (.str "5") (.union [.prim .int, .obj 5]) (fresh [])).val? = some (.int 5) := by
  refine ⟨by decide, ?_, by decide⟩
  unfold ExactBasic; decide

/-! ## C12 -/

/-- **C12** When a union load fails with a TypedloadException (and `uniondebugconflict` is off), it is a TypedloadValueError for this
value and type that lists exactly one exception per member, in the order tried; the first trace item of each names the
value, the union and the member; and every member has refused the value. -/
theorem C12_reports_all {s s' : LState} {ts : List Ty} (hd : C.Usual W (.union ts)) (hs : Reachable W C s) {v : Val} {e : Exc}
    (hdbg : C.uniondebugconflict = false) (h : Raises W C s v (.union ts) e s') (htl : e.isTL = true) :
    e.cls = .tlValue ∧ e.value = v ∧ e.ty = some (.union ts) ∧ (∀ u ∈ ts, Refuses W C s v u) ∧
    ∃ order, TryOrder W C v ts order ∧ order.Perm ts ∧
      Zip2 (fun u (x : Exc) => x.isTL = true ∧ ∃ rest, x.trace = ⟨v, .union ts, some (.union u)⟩ :: rest) order e.subs := by
  obtain ⟨e', rfl, hx, ⟨h1, _⟩ | ⟨order, c, r, es, ho, hl, hc⟩⟩ := union_raises hd hs.coh h
  · simp [loadExc, h1, ExcClass.isTL] at htl
  · obtain ⟨pre, post, os, rfl, hz, h1, h2, h3, h4, h5⟩ := hl
    simp only [Nat.zero_add, List.nil_append] at h1 h2
    rcases h5 hdbg with ⟨rfl, h0⟩ | ⟨x, hx', _⟩
    · obtain ⟨a, b⟩ := zip_oks_nil hz h0
      rw [h0] at h1
      rcases hc with ⟨_, rfl⟩ | ⟨hc, _⟩
      · simp only [loadExc, mkExcSubs, Exc.isTL_mk, ExcClass.isTL, if_true, Exc.cls_push, Exc.cls_mk, Exc.value_push,
          Exc.value_mk, Exc.ty_push, Exc.ty_mk, Exc.subs_push, Exc.subs_mk, true_and]
        refine ⟨fun u hu => a u ?_, _, ho, ho.perm, ?_⟩
        · have := ho.perm.mem_iff.2 hu; simpa using this
        · rw [h2, List.append_nil]; exact b
      · simp at h1; omega
    · rw [hx'] at h1; simp at h1
      rcases hc with ⟨hc, _⟩ | ⟨hc, _⟩ <;> omega

example : ((load Sample.W Sample.C 6 (.dict [(.str "tag", .str "two")]) (.union [.obj 5, .obj 6]) (fresh [])).err?.map
    (fun e => e.subs.map (fun (x : Exc) => x.trace.head?.map (·.ann)))) =
    some [some (some (.union (.obj 6))), some (some (.union (.obj 5)))] := by decide

/-! ## C13 -/

/-- Each member either accepts the value at any moment of this load, or refuses it with a TypedloadException at any moment. -/
structure StableMembers (W : World) (C : Config) (s : LState) (v : Val) (ts : List Ty) (acc : Ty → Bool) : Prop where
  accepts : ∀ u ∈ ts, acc u = true → ∀ s1, Ext W C s s1 → ∃ r s2, Loads W C s1 v u r s2
  refuses : ∀ u ∈ ts, acc u = false → ∀ s1, Ext W C s s1 → ∃ e s2, Raises W C s1 v u e s2 ∧ e.isTL = true

theorem StableMembers.terminates {s : LState} {v : Val} {ts : List Ty} {acc : Ty → Bool} (h : StableMembers W C s v ts acc) :
    ∀ u ∈ ts, Terminates W C s v u := by
  intro u hu s1 he
  cases ha : acc u with
  | true => left; exact h.accepts u hu ha s1 he
  | false => right; obtain ⟨e, s2, a, _⟩ := h.refuses u hu ha s1 he; exact ⟨e, s2, a⟩

theorem StableMembers.count {s : LState} {v : Val} {t : Ty} {ts us : List Ty} {acc : Ty → Bool}
    (h : StableMembers W C s v ts acc) {os : List (Except Exc Val)} (hz : Zip2 (Outcome W C s v t) us os) :
    (∀ u ∈ us, u ∈ ts) → (oks os).length = us.countP acc := by
  induction hz with
  | nil => intro _; rfl
  | cons ho _ ih =>
    rename_i u o us os _
    intro hsub
    have ih := ih (fun w hw => hsub w (by simp [hw]))
    cases o with
    | ok x =>
      obtain ⟨s1, s2, he, hl⟩ := ho
      cases ha : acc u with
      | true => simp [ha, ih]
      | false =>
        obtain ⟨e, s3, hr, _⟩ := h.refuses u (hsub u (by simp)) ha s1 he
        exact (hl.not_raises hr).elim
    | error x =>
      obtain ⟨s1, s2, e, e1, he, hr, _⟩ := ho
      cases ha : acc u with
      | false => simp [ha, ih]
      | true =>
        obtain ⟨r, s3, hl⟩ := h.accepts u (hsub u (by simp)) ha s1 he
        exact (hl.not_raises hr).elim

/-- **C13** With `uniondebugconflict`, a union load returns only if exactly one member accepted: the result is its result and all the
other members refused. -/
theorem C13_unambiguous {s s' : LState} {ts : List Ty} (hd : C.Usual W (.union ts)) (hs : Reachable W C s) {v r : Val}
    (hdbg : C.uniondebugconflict = true) (hx : ¬ ExactBasic C v ts) (h : Loads W C s v (.union ts) r s') :
    ∃ order pre u post, order.Perm ts ∧ order = pre ++ u :: post ∧ AcceptsAs W C s v u r ∧
      ∀ w ∈ pre ++ post, Refuses W C s v w := by
  rcases union_loads hd hs.coh h with h | ⟨_, order, es, ho, hl⟩
  · exact absurd h.1 hx
  · obtain ⟨pre, u, post, rfl, a, b, c⟩ := loop_one hl
    refine ⟨_, pre, u, post, ho.perm, rfl, a, fun w hw => ?_⟩
    rcases List.mem_append.1 hw with hw | hw
    · exact b w hw
    · exact c hdbg w hw

/-- **C13** With `uniondebugconflict`, for members that consistently accept or refuse the value and hashable discriminators: the load
succeeds iff exactly one member accepts, raises TypedloadTypeError iff two or more do, TypedloadValueError iff none does. -/
theorem C13_ambiguity {s : LState} {ts : List Ty} (hd : C.Usual W (.union ts)) (hs : Reachable W C s) {v : Val} {acc : Ty → Bool}
    (hdbg : C.uniondebugconflict = true) (hx : ¬ ExactBasic C v ts) (htag : ¬ UnhashableTag W v ts)
    (hst : StableMembers W C s v ts acc) :
    ((∃ r s', Loads W C s v (.union ts) r s') ↔ ts.countP acc = 1) ∧
    ((∃ e s', Raises W C s v (.union ts) e s' ∧ e.cls = .tlType) ↔ 2 ≤ ts.countP acc) ∧
    ((∃ e s', Raises W C s v (.union ts) e s' ∧ e.cls = .tlValue) ↔ ts.countP acc = 0) := by
  have cnt : ∀ order c r es, TryOrder W C v ts order → LoopSpec W C s v (.union ts) order 0 .none [] (c, r, es) →
      c = ts.countP acc := by
    rintro order c r es ho ⟨pre, post, os, rfl, hz, h1, h2, h3, h4, h5⟩
    have h4 := h4 hdbg
    subst h4
    simp only [Nat.zero_add, List.append_nil] at h1 ho
    rw [h1, hst.count hz (fun u hu => ho.perm.mem_iff.1 hu)]
    exact ho.perm.countP_eq acc
  have f1 : (∃ r s', Loads W C s v (.union ts) r s') → ts.countP acc = 1 := by
    rintro ⟨r, s', h⟩
    rcases union_loads hd hs.coh h with h | ⟨_, order, es, ho, hl⟩
    · exact absurd h.1 hx
    · exact (cnt order 1 r es ho hl).symm
  have f2 : ∀ e s', Raises W C s v (.union ts) e s' →
      (e.cls = .tlType ∧ 2 ≤ ts.countP acc) ∨ (e.cls = .tlValue ∧ ts.countP acc = 0) := by
    intro e s' h
    obtain ⟨e', rfl, _, ⟨_, hu | ⟨u, hu, s1, e1, s2, a, b, c⟩⟩ | ⟨order, c, r, es, ho, hl, hc⟩⟩ := union_raises hd hs.coh h
    · exact absurd hu htag
    · exfalso
      cases ha : acc u with
      | true => obtain ⟨r, s3, hl⟩ := hst.accepts u hu ha s1 a; exact hl.not_raises b
      | false =>
        obtain ⟨e, s3, hr, ht⟩ := hst.refuses u hu ha s1 a
        rw [← (hr.unique b).1, ht] at c; cases c
    · have := cnt order c r es ho hl
      rcases hc with ⟨h, rfl⟩ | ⟨h, rfl⟩
      · right; exact ⟨by simp [loadExc, mkExcSubs, ExcClass.isTL], by omega⟩
      · left; exact ⟨by simp [loadExc, mkExcSubs, ExcClass.isTL], by omega⟩
  have term := union_terminates hd hs.coh hst.terminates
  refine ⟨⟨f1, fun h => ?_⟩, ⟨?_, fun h => ?_⟩, ⟨?_, fun h => ?_⟩⟩
  · rcases term with h' | ⟨e, s', h'⟩
    · exact h'
    · rcases f2 e s' h' with ⟨_, h2⟩ | ⟨_, h2⟩ <;> omega
  · rintro ⟨e, s', h', hcl⟩
    rcases f2 e s' h' with ⟨_, h2⟩ | ⟨h2, _⟩
    · exact h2
    · rw [hcl] at h2; cases h2
  · rcases term with h' | ⟨e, s', h'⟩
    · have := f1 h'; omega
    · rcases f2 e s' h' with ⟨h2, _⟩ | ⟨_, h2⟩
      · exact ⟨e, s', h', h2⟩
      · omega
  · rintro ⟨e, s', h', hcl⟩
    rcases f2 e s' h' with ⟨h2, _⟩ | ⟨_, h2⟩
    · rw [hcl] at h2; cases h2
    · exact h2
  · rcases term with h' | ⟨e, s', h'⟩
    · have := f1 h'; omega
    · rcases f2 e s' h' with ⟨_, h2⟩ | ⟨h2, _⟩
      · omega
      · exact ⟨e, s', h', h2⟩

theorem pick_of_leaf_stable {s : LState} (hc : Coh W C s) {h : Handler} {v : Val} {t : Ty} {x : Except Exc Val}
    (hp : pick W C t = .ok h) (hx : ∀ rec : Rec, ∀ s, step W C rec h v t s = M.lift x s) :
    match x with
    | .ok r => ∀ s1, Ext W C s s1 → ∃ s2, Loads W C s1 v t r s2
    | .error e => ∀ s1, Ext W C s s1 → ∃ s2, Raises W C s1 v t (loadExc v t none e) s2 := by
  cases x with
  | ok r => intro s1 he; exact (leaf_loads (hc.ext he) hp hx _).2 rfl
  | error e => intro s1 he; exact (leaf_raises (hc.ext he) hp hx _).2 ⟨_, rfl, rfl⟩

/-- Hypotheses of C13 met by `Union[Literal[1], Literal[True, 'x'], NoneType]` and the value `True`: the two literals accept it. -/
example : StableMembers Sample.W { Sample.C with uniondebugconflict := true } (fresh []) (.bool true)
    [.lit [.int 1], .lit [.bool true, .str "x"], .prim .none] (fun t => is_literal t) := by
  have hc : Coh Sample.W { Sample.C with uniondebugconflict := true } (fresh []) := Coh.new _ _
  have hlit : ∀ vs, pick Sample.W { Sample.C with uniondebugconflict := true } (.lit vs) = .ok .literalload := fun vs => rfl
  constructor
  · intro u hu ha s1 he
    simp only [List.mem_cons, List.not_mem_nil, or_false] at hu
    rcases hu with rfl | rfl | rfl
    · have := pick_of_leaf_stable (x := .ok (.bool true)) hc (hlit [.int 1]) (v := .bool true) (fun _ _ => rfl) s1 he
      exact ⟨_, this⟩
    · have := pick_of_leaf_stable (x := .ok (.bool true)) hc (hlit [.bool true, .str "x"]) (v := .bool true) (fun _ _ => rfl) s1 he
      exact ⟨_, this⟩
    · cases ha
  · intro u hu ha s1 he
    simp only [List.mem_cons, List.not_mem_nil, or_false] at hu
    rcases hu with rfl | rfl | rfl
    · cases ha
    · cases ha
    · obtain ⟨s2, hr⟩ := pick_of_leaf_stable (x := .error (mkExc .tlValue .notNone (.bool true) (.prim .none))) hc
        (show pick Sample.W { Sample.C with uniondebugconflict := true } (.prim .none) = .ok .noneload from rfl)
        (v := .bool true) (fun _ _ => rfl) s1 he
      exact ⟨_, s2, hr, rfl⟩

/-- The hypotheses of C10 can be met: `Union[NoneType, Literal[1]]` accepts `True`. -/
example : ∃ r s', Loads Sample.W Sample.C (fresh []) (.bool true) (.union [.prim .none, .lit [.int 1]]) r s' := by
  have hc : Coh Sample.W Sample.C (fresh []) := Coh.new _ _
  have h1 := fun s1 he => pick_of_leaf_stable (x := .ok (.bool true)) hc (pick_lit (W := Sample.W) (C := Sample.C) rfl [.int 1])
    (v := .bool true) (fun _ _ => rfl) s1 he
  have h2 := fun s1 he => pick_of_leaf_stable (x := .error (mkExc .tlValue .notNone (.bool true) (.prim .none))) hc
    (pick_none (W := Sample.W) (C := Sample.C) rfl) (v := .bool true) (fun _ _ => rfl) s1 he
  refine C10_union_complete_partial (W := Sample.W) (C := Sample.C) (p := .lit [.int 1]) (show Sample.C.Default from rfl) (.new _ _) rfl (by simp) (fun s1 he => ⟨_, h1 s1 he⟩) ?_ ?_ ?_
  · intro u hu s1 he
    simp only [List.mem_cons, List.not_mem_nil, or_false] at hu
    rcases hu with rfl | rfl
    · right; exact ⟨_, h2 s1 he⟩
    · left; exact ⟨_, h1 s1 he⟩
  · intro u hu s1 e s2 he hr
    simp only [List.mem_cons, List.not_mem_nil, or_false] at hu
    rcases hu with rfl | rfl
    · obtain ⟨s3, h⟩ := h2 s1 he
      rw [(hr.unique h).1]; rfl
    · obtain ⟨s3, h⟩ := h1 s1 he
      exact (h.not_raises hr).elim
  · rintro ⟨kvs, k, x, h, _⟩; cases h

/-! ## C14 -/

/-- **C14** Optional (any union with None among its members) loads None to None, and a value of the exact type of a basic member
unchanged. -/
theorem C14_optional {s : LState} (hs : Reachable W C s) (ts : List Ty) (hd : C.Usual W (.union ts)) (hb : .none ∈ C.basictypes)
    (hn : .prim .none ∈ ts) :
    (∃ s', Loads W C s .none (.union ts) .none s') ∧
    ∀ p ∈ C.basictypes, .prim p ∈ ts → ∀ v, typeOf v = .prim p → ∃ s', Loads W C s v (.union ts) v s' :=
  ⟨C11_exact_basic hd hs ⟨by simpa [typeOf, Config.isBasic] using hb, hn⟩,
   fun p hp ht v hv => C11_exact_basic hd hs ⟨by rw [hv]; simpa [Config.isBasic] using hp, by rw [hv]; exact ht⟩⟩

example : Prim.none ∈ Sample.C.basictypes ∧ Ty.prim .none ∈ [Ty.obj 0, Ty.prim .none] := by decide

end TL
