import Verif.Model.Loader
/-!
# Basic lemmas: association lists and a weakest-precondition calculus
-/

namespace TL

instance {ε α : Type} [DecidableEq ε] [DecidableEq α] : DecidableEq (Except ε α) := fun a b =>
  match a, b with
  | .ok x, .ok y => if h : x = y then isTrue (by rw [h]) else isFalse (fun e => h (Except.ok.inj e))
  | .error x, .error y => if h : x = y then isTrue (by rw [h]) else isFalse (fun e => h (Except.error.inj e))
  | .ok _, .error _ => isFalse (fun e => by cases e)
  | .error _, .ok _ => isFalse (fun e => by cases e)

/-- The two lists have the same length and corresponding elements are related. -/
inductive Zip2 {α β : Type} (R : α → β → Prop) : List α → List β → Prop
  | nil : Zip2 R [] []
  | cons {a b as bs} : R a b → Zip2 R as bs → Zip2 R (a :: as) (b :: bs)

theorem Zip2.length_eq {α β : Type} {R : α → β → Prop} {as : List α} {bs : List β} (h : Zip2 R as bs) :
    as.length = bs.length := by
  induction h with
  | nil => rfl
  | cons _ _ ih => simp [ih]

theorem Zip2.mem_left {α β : Type} {R : α → β → Prop} {as : List α} {bs : List β} (h : Zip2 R as bs) {a : α} (ha : a ∈ as) :
    ∃ b ∈ bs, R a b := by
  induction h with
  | nil => cases ha
  | cons hr _ ih =>
    rcases List.mem_cons.1 ha with rfl | ha
    · exact ⟨_, by simp, hr⟩
    · obtain ⟨b, hb, h⟩ := ih ha; exact ⟨b, by simp [hb], h⟩

theorem Zip2.mem_right {α β : Type} {R : α → β → Prop} {as : List α} {bs : List β} (h : Zip2 R as bs) {b : β} (hb : b ∈ bs) :
    ∃ a ∈ as, R a b := by
  induction h with
  | nil => cases hb
  | cons hr _ ih =>
    rcases List.mem_cons.1 hb with rfl | hb
    · exact ⟨_, by simp, hr⟩
    · obtain ⟨a, ha, h⟩ := ih hb; exact ⟨a, by simp [ha], h⟩

theorem Zip2.mono {α β : Type} {R S : α → β → Prop} (hRS : ∀ a b, R a b → S a b) {as : List α} {bs : List β}
    (h : Zip2 R as bs) : Zip2 S as bs := by
  induction h with
  | nil => exact .nil
  | cons h _ ih => exact .cons (hRS _ _ h) ih
theorem Zip2.imp_mem {α β : Type} {R S : α → β → Prop} {as : List α} {bs : List β} (h : Zip2 R as bs)
    (hRS : ∀ a ∈ as, ∀ b ∈ bs, R a b → S a b) : Zip2 S as bs := by
  induction h with
  | nil => exact .nil
  | cons h _ ih => exact .cons (hRS _ (by simp) _ (by simp) h) (ih (fun a ha b hb => hRS a (by simp [ha]) b (by simp [hb])))

section alist
variable {κ α : Type} [DecidableEq κ]

@[simp] theorem aget_nil (k : κ) : aget ([] : List (κ × α)) k = none := rfl

theorem aget_aset (l : List (κ × α)) (k k' : κ) (v : α) :
    aget (aset l k v) k' = if k = k' then some v else aget l k' := by
  induction l with
  | nil => simp [aset, aget]
  | cons p l ih =>
    obtain ⟨a, b⟩ := p
    simp only [aset]
    by_cases h : a = k
    · subst h; simp only [if_true]; by_cases h' : a = k' <;> simp [aget, h']
    · simp only [h, if_false]
      by_cases h' : a = k'
      · subst h'; simp [aget, Ne.symm h]
      · simp [aget, h', ih]

@[simp] theorem aget_aset_self (l : List (κ × α)) (k : κ) (v : α) : aget (aset l k v) k = some v := by
  simp [aget_aset]

theorem aget_mem {l : List (κ × α)} {k : κ} {v : α} (h : aget l k = some v) : (k, v) ∈ l := by
  induction l with
  | nil => simp at h
  | cons p l ih =>
    obtain ⟨a, b⟩ := p
    simp only [aget] at h
    split at h
    · rename_i hk; subst hk; simp at h; simp [h]
    · exact List.mem_cons_of_mem _ (ih h)

theorem aget_isSome_iff (l : List (κ × α)) (k : κ) : (aget l k).isSome = true ↔ k ∈ l.map (·.1) := by
  induction l with
  | nil => simp
  | cons p l ih =>
    obtain ⟨a, b⟩ := p
    simp only [aget, List.map_cons, List.mem_cons]
    by_cases h : a = k
    · simp [h]
    · simp [h, ih, Ne.symm h]

theorem aget_eq_none_iff (l : List (κ × α)) (k : κ) : aget l k = none ↔ k ∉ l.map (·.1) := by
  rw [← aget_isSome_iff]; cases aget l k <;> simp

theorem mem_aset {l : List (κ × α)} {k : κ} {v : α} {p : κ × α} (h : p ∈ aset l k v) : p = (k, v) ∨ p ∈ l := by
  induction l with
  | nil => simpa [aset] using h
  | cons q l ih =>
    obtain ⟨a, b⟩ := q
    simp only [aset] at h
    split at h
    · rename_i hk
      rcases List.mem_cons.1 h with h | h
      · left; subst hk; exact h
      · right; exact List.mem_cons_of_mem _ h
    · rcases List.mem_cons.1 h with h | h
      · right; simp [h]
      · rcases ih h with h | h
        · left; exact h
        · right; exact List.mem_cons_of_mem _ h
end alist

/-! ## Weakest preconditions -/

variable {σ ε α β : Type}

/-- `m` run from `s` returns with `Q`, raises with `E`, or diverges. -/
def Post (m : M σ ε α) (s : σ) (Q : α → σ → Prop) (E : ε → σ → Prop) : Prop :=
  match m s with
  | .ok a s' => Q a s'
  | .err e s' => E e s'
  | .div => True

theorem Post.mono {m : M σ ε α} {s : σ} {Q Q' : α → σ → Prop} {E E' : ε → σ → Prop}
    (h : Post m s Q E) (hq : ∀ a s', Q a s' → Q' a s') (he : ∀ e s', E e s' → E' e s') : Post m s Q' E' := by
  unfold Post at *; split <;> simp_all

theorem Post.and {m : M σ ε α} {s : σ} {Q Q' : α → σ → Prop} {E E' : ε → σ → Prop}
    (h : Post m s Q E) (h' : Post m s Q' E') : Post m s (fun a s' => Q a s' ∧ Q' a s') (fun e s' => E e s' ∧ E' e s') := by
  unfold Post at *; split <;> simp_all

theorem Post.ok {m : M σ ε α} {s s' : σ} {a : α} {Q : α → σ → Prop} {E : ε → σ → Prop}
    (h : Post m s Q E) (hm : m s = .ok a s') : Q a s' := by
  unfold Post at h; simpa [hm] using h

theorem Post.err {m : M σ ε α} {s s' : σ} {e : ε} {Q : α → σ → Prop} {E : ε → σ → Prop}
    (h : Post m s Q E) (hm : m s = .err e s') : E e s' := by
  unfold Post at h; simpa [hm] using h

@[simp] theorem post_pure (a : α) (s : σ) (Q : α → σ → Prop) (E : ε → σ → Prop) :
    Post (pure a : M σ ε α) s Q E ↔ Q a s := Iff.rfl
@[simp] theorem post_throw (e : ε) (s : σ) (Q : α → σ → Prop) (E : ε → σ → Prop) :
    Post (M.throw e : M σ ε α) s Q E ↔ E e s := Iff.rfl
@[simp] theorem post_bind (m : M σ ε α) (f : α → M σ ε β) (s : σ) (Q : β → σ → Prop) (E : ε → σ → Prop) :
    Post (m >>= f) s Q E ↔ Post m s (fun a s' => Post (f a) s' Q E) E := by
  unfold Post; rw [M.bind_apply]; cases h : m s <;> simp
@[simp] theorem post_rescue (m : M σ ε α) (f : ε → M σ ε α) (s : σ) (Q : α → σ → Prop) (E : ε → σ → Prop) :
    Post (M.rescue m f) s Q E ↔ Post m s Q (fun e s' => Post (f e) s' Q E) := by
  unfold Post; rw [M.catch_apply]; cases h : m s <;> simp

@[simp] theorem post_handle (m : M σ ε α) (f : α → M σ ε β) (g : ε → M σ ε β) (s : σ) (Q : β → σ → Prop)
    (E : ε → σ → Prop) :
    Post (M.handle m f g) s Q E ↔ Post m s (fun a s' => Post (f a) s' Q E) (fun e s' => Post (g e) s' Q E) := by
  unfold Post; rw [M.handle_apply]; cases h : m s <;> simp
@[simp] theorem post_get (s : σ) (Q : σ → σ → Prop) (E : ε → σ → Prop) :
    Post (M.get : M σ ε σ) s Q E ↔ Q s s := Iff.rfl
@[simp] theorem post_modify (f : σ → σ) (s : σ) (Q : Unit → σ → Prop) (E : ε → σ → Prop) :
    Post (M.modify f : M σ ε Unit) s Q E ↔ Q () (f s) := Iff.rfl

/-! ## Preservation of a state relation -/

/-- Every outcome of `m` is in a state related to the initial one. -/
def Pres (R : σ → σ → Prop) (m : M σ ε α) : Prop := ∀ s, Post m s (fun _ s' => R s s') (fun _ s' => R s s')

section pres
variable {R : σ → σ → Prop}

theorem Pres.pure (hr : ∀ s, R s s) (a : α) : Pres R (pure a : M σ ε α) := fun s => hr s
theorem Pres.throw (hr : ∀ s, R s s) (e : ε) : Pres R (M.throw e : M σ ε α) := fun s => hr s
theorem Pres.bind (ht : ∀ {a b c}, R a b → R b c → R a c) {m : M σ ε α} {f : α → M σ ε β}
    (hm : Pres R m) (hf : ∀ a, Pres R (f a)) : Pres R (m >>= f) := by
  intro s; rw [post_bind]
  exact (hm s).mono (fun a s' h => (hf a s').mono (fun _ _ h' => ht h h') (fun _ _ h' => ht h h')) (fun _ _ h => h)
theorem Pres.rescue (ht : ∀ {a b c}, R a b → R b c → R a c) {m : M σ ε α} {f : ε → M σ ε α}
    (hm : Pres R m) (hf : ∀ e, Pres R (f e)) : Pres R (M.rescue m f) := by
  intro s; rw [post_rescue]
  exact (hm s).mono (fun _ _ h => h) (fun e s' h => (hf e s').mono (fun _ _ h' => ht h h') (fun _ _ h' => ht h h'))
theorem Pres.handle (ht : ∀ {a b c}, R a b → R b c → R a c) {m : M σ ε α} {f : α → M σ ε β} {g : ε → M σ ε β}
    (hm : Pres R m) (hf : ∀ a, Pres R (f a)) (hg : ∀ e, Pres R (g e)) : Pres R (M.handle m f g) := by
  intro s; rw [post_handle]
  exact (hm s).mono (fun a s' h => (hf a s').mono (fun _ _ h' => ht h h') (fun _ _ h' => ht h h'))
    (fun e s' h => (hg e s').mono (fun _ _ h' => ht h h') (fun _ _ h' => ht h h'))
theorem Pres.get (hr : ∀ s, R s s) : Pres R (M.get : M σ ε σ) := fun s => hr s
end pres

/-- A rearrangement of the images is the image of a rearrangement. -/
theorem perm_map_exists {α β : Type} {f : α → β} {ys zs : List β} (h : ys.Perm zs) : ∀ {l : List α}, zs = l.map f → ∃ m : List α, m.Perm l ∧ m.map f = ys := by
  induction h with
  | nil => intro l hl; exact ⟨l, .refl _, hl.symm⟩
  | cons y _ ih =>
    intro l hl
    cases l with
    | nil => cases hl
    | cons a l =>
      simp only [List.map_cons, List.cons.injEq] at hl
      obtain ⟨m, h1, h2⟩ := ih hl.2
      exact ⟨a :: m, h1.cons a, by simp [h2, hl.1]⟩
  | swap x y l' =>
    intro l hl
    cases l with
    | nil => cases hl
    | cons a l =>
      cases l with
      | nil => cases hl
      | cons b l =>
        simp only [List.map_cons, List.cons.injEq] at hl
        exact ⟨b :: a :: l, .swap _ _ _, by simp [hl]⟩
  | trans _ _ ih1 ih2 =>
    intro l hl
    obtain ⟨m, h1, h2⟩ := ih2 hl
    obtain ⟨m', h3, h4⟩ := ih1 h2.symm
    exact ⟨m', h3.trans h1, h4⟩

/-- The call of an Enum class returns one of its members. -/
theorem enumCall_member {W : World} {e : Nat} {v m : Val} (h : enumCall W e v = some m) : ∃ p ∈ (W.enm e).members, m = .enumv e p.1 := by
  unfold enumCall at h
  split at h
  · rename_i hm
    cases h
    obtain ⟨p, hp, rfl⟩ := List.mem_map.1 hm
    exact ⟨p, hp, rfl⟩
  · split at h
    · rename_i p hp
      cases h
      exact ⟨p, List.mem_of_find?_eq_some hp, rfl⟩
    · obtain ⟨n, hn, rfl⟩ := Option.map_eq_some_iff.1 h
      obtain ⟨_, hc⟩ := Option.filter_eq_some_iff.1 hn
      obtain ⟨p, hp, rfl⟩ := List.mem_map.1 (List.contains_iff_mem.1 hc)
      exact ⟨p, hp, rfl⟩

end TL
