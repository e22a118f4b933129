import Verif.Lemmas.Sem
/-!
# Where the errors of the loops come from
-/

namespace TL

variable {W : World} {C : Config} {F : String → Ty → Prop} {P : Handler → Val → Ty → Except Exc Val → Prop}

theorem IterSem.error {h : Handler} {k : SeqKind} {et : Ty} {v : Val} {t : Ty} {xs : List Val} {i : Nat} {acc : List Val}
    {o : Except Exc (List Val)} (hi : IterSem W C P h k et v t xs i acc o) {e : Exc} (ho : o = .error e) :
    ∃ j x, xs[j]? = some x ∧ ((∃ e', ElemSem C P h et x (.error e') ∧ e = elemError v t (i + j) e') ∨
      ∃ c, e = elemError v t (i + j) (.plain c)) := by
  induction hi with
  | nil => cases ho
  | cons _ _ _ ih =>
    obtain ⟨j, x, hx, h⟩ := ih ho
    refine ⟨j + 1, x, by simpa using hx, ?_⟩
    rename_i i _ _ _ _ _ _ _
    rw [show i + (j + 1) = i + 1 + j by omega]; exact h
  | unhashable => cases ho; exact ⟨0, _, rfl, Or.inr ⟨_, rfl⟩⟩
  | stop => cases ho
  | elem h _ => cases ho; exact ⟨0, _, rfl, Or.inl ⟨_, h, rfl⟩⟩

theorem TupSem.error {v : Val} {t : Ty} {xs : List Val} {us : List Ty} {i : Nat} {o : Except Exc (List Val)}
    (hi : TupSem W C P v t xs us i o) {e : Exc} (ho : o = .error e) :
    ∃ j x u, xs[j]? = some x ∧ us[j]? = some u ∧ ∃ e', TupElemSem W C P x u (.error e') ∧ e = elemError v t (i + j) e' := by
  induction hi generalizing e with
  | nil_left => cases ho
  | nil_right => cases ho
  | ok => cases ho
  | later _ _ ih =>
    cases ho
    obtain ⟨j, x, u, hx, hu, h⟩ := ih rfl
    refine ⟨j + 1, x, u, by simpa using hx, by simpa using hu, ?_⟩
    rename_i i _ _ _ _
    rw [show i + (j + 1) = i + 1 + j by omega]; exact h
  | elem h => cases ho; exact ⟨0, _, _, rfl, rfl, _, h, rfl⟩

theorem SlowSem.error {kt vt : Ty} {kvs acc : List (Val × Val)} {o : Except Exc (List (Val × Val))}
    (hs : SlowSem W C P kt vt kvs acc o) {e : Exc} (ho : o = .error e) : ∃ p ∈ kvs,
    LoadSem W C P p.1 kt (some (.key p.1)) (.error e) ∨ LoadSem W C P p.2 vt (some (.value p.2)) (.error e) ∨
    (e = .plain .type ∧ ∃ k', LoadSem W C P p.1 kt (some (.key p.1)) (.ok k') ∧ W.hash k' = false) := by
  induction hs with
  | nil => cases ho
  | cons _ _ _ _ ih => obtain ⟨p, hp, h⟩ := ih ho; exact ⟨p, by simp [hp], h⟩
  | key h => cases ho; exact ⟨_, List.mem_cons_self .., Or.inl h⟩
  | value _ h => cases ho; exact ⟨_, List.mem_cons_self .., Or.inr (Or.inl h)⟩
  | unhashable h _ hh => cases ho; exact ⟨_, List.mem_cons_self .., Or.inr (Or.inr ⟨rfl, _, h, hh⟩)⟩

theorem FieldsSem.error {info : ObjInfo} {v : Val} {t : Ty} {kvs : List (Val × Val)} {acc : List (String × Val)}
    {o : Except Exc (List (String × Val))} (hs : FieldsSem W C P info v t kvs acc o) {e : Exc} (ho : o = .error e) :
    ∃ m x ft, (.str m, x) ∈ kvs ∧ aget info.hints m = some ft ∧
      ((∃ h e', pick W C ft = .ok h ∧ P h x ft (.error e') ∧ e = if e'.isTL then e'.push ⟨v, t, some (.field m)⟩ else e') ∨
       ∃ c, pick W C ft = .error c ∧ e = lookupExc (mkExc .tlType (.noHandler ft) v ft) c) := by
  induction hs with
  | nil => cases ho
  | other _ _ ih => obtain ⟨m, x, ft, hm, h⟩ := ih ho; exact ⟨m, x, ft, by simp [hm], h⟩
  | field _ _ _ _ _ ih => obtain ⟨m, x, ft, hm, h⟩ := ih ho; exact ⟨m, x, ft, by simp [hm], h⟩
  | fieldErr _ hh hp hP => cases ho; exact ⟨_, _, _, List.mem_cons_self .., hh, Or.inl ⟨_, _, hp, hP, rfl⟩⟩
  | noHandler _ hh hp => cases ho; exact ⟨_, _, _, List.mem_cons_self .., hh, Or.inr ⟨_, hp, rfl⟩⟩

theorem TrySem.crashed {v : Val} {t : Ty} {us : List Ty} {c : Nat} {r : Val} {es : List Exc} {o : Except Exc (Nat × Val × List Exc)}
    (hs : TrySem W C P v t us c r es o) {e : Exc} (ho : o = .error e) : e.isTL = false ∧
    ∃ u ∈ us, CallSem W C P (mkExc .tlValue (.noHandlerIn u t) v u) v u (.error e) := by
  induction hs with
  | nil => cases ho
  | win => cases ho
  | count _ _ _ ih => obtain ⟨h, u, hu, h'⟩ := ih ho; exact ⟨h, u, by simp [hu], h'⟩
  | refuse _ _ _ ih => obtain ⟨h, u, hu, h'⟩ := ih ho; exact ⟨h, u, by simp [hu], h'⟩
  | crash h ht => cases ho; exact ⟨ht, _, List.mem_cons_self .., h⟩

theorem TrySem.refused {v : Val} {t : Ty} {us : List Ty} {c : Nat} {r : Val} {es : List Exc} {o : Except Exc (Nat × Val × List Exc)}
    (hs : TrySem W C P v t us c r es o) {c' : Nat} {r' : Val} {es' : List Exc} (ho : o = .ok (c', r', es')) : ∀ x ∈ es', x ∈ es ∨
    ∃ u ∈ us, ∃ e, CallSem W C P (mkExc .tlValue (.noHandlerIn u t) v u) v u (.error e) ∧ e.isTL = true ∧
      x = e.push ⟨v, t, some (.union u)⟩ := by
  induction hs with
  | nil => cases ho; exact fun x hx => Or.inl hx
  | win => cases ho; exact fun x hx => Or.inl hx
  | count _ _ _ ih =>
    intro x hx
    rcases ih ho x hx with h | ⟨u, hu, h⟩
    · exact Or.inl h
    · exact Or.inr ⟨u, by simp [hu], h⟩
  | refuse hc ht _ ih =>
    intro x hx
    rcases ih ho x hx with h | ⟨u, hu, h⟩
    · rcases List.mem_append.1 h with h | h
      · exact Or.inl h
      · simp only [List.mem_singleton] at h
        exact Or.inr ⟨_, List.mem_cons_self .., _, hc, ht, h⟩
    · exact Or.inr ⟨u, by simp [hu], h⟩
  | crash => cases ho

theorem HintsSem.error {v : Val} {n : Nat} {us : List Ty} {es : List Exc} {o : Except Exc Val} (hs : HintsSem W C P v n us es o)
    {e : Exc} (ho : o = .error e) : ∃ es', e = mkExcSubs .tlValue (.enumNone (.enum n)) v (.enum n) es' ∧
    ∀ x ∈ es', x ∈ es ∨ (us ≠ [] ∧ x = .plain .value) ∨ ∃ u ∈ us, LoadSem W C P v u (some (.union u)) (.error x) := by
  induction hs with
  | nil => cases ho; exact ⟨_, rfl, fun x hx => Or.inl hx⟩
  | ok => cases ho
  | noMember _ _ _ ih =>
    obtain ⟨es', h1, h2⟩ := ih ho
    refine ⟨es', h1, fun x hx => ?_⟩
    rcases h2 x hx with h | ⟨_, h⟩ | ⟨u, hu, h⟩
    · rcases List.mem_append.1 h with h | h
      · exact Or.inl h
      · exact Or.inr (Or.inl ⟨by simp, by simpa using h⟩)
    · exact Or.inr (Or.inl ⟨by simp, h⟩)
    · exact Or.inr (Or.inr ⟨u, by simp [hu], h⟩)
  | err hl _ ih =>
    obtain ⟨es', h1, h2⟩ := ih ho
    refine ⟨es', h1, fun x hx => ?_⟩
    rcases h2 x hx with h | ⟨_, h⟩ | ⟨u, hu, h⟩
    · rcases List.mem_append.1 h with h | h
      · exact Or.inl h
      · simp only [List.mem_singleton] at h; subst h
        exact Or.inr (Or.inr ⟨_, List.mem_cons_self .., hl⟩)
    · exact Or.inr (Or.inl ⟨by simp, h⟩)
    · exact Or.inr (Or.inr ⟨u, by simp [hu], h⟩)

theorem elemError_tl (v : Val) (t : Ty) (i : Nat) (e : Exc) : (elemError v t i e).isTL = true := by
  unfold elemError
  split
  · simpa
  · split <;> rfl

end TL
