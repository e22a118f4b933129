import Verif.Lemmas.Shuffle
import Verif.Lemmas.EvolveRun
/-!
# Two loads that both return or both raise
-/

namespace TL

set_option linter.unusedSectionVars false

/-- With enough fuel, both computations return, and the results are related, or both raise. -/
def Agree {α β : Type} (Q : α → β → Prop) (m : Nat → R α) (m' : Nat → R β) : Prop :=
  (∃ a b, Ok m a ∧ Ok m' b ∧ Q a b) ∨ (∃ e, Er m e) ∧ ∃ e', Er m' e'

section agree
variable {α β γ δ : Type} {Q : α → β → Prop} {Q' : γ → δ → Prop}

theorem Agree.pure {a : α} {b : β} (h : Q a b) : Agree Q (fun _ => Pure.pure a) (fun _ => Pure.pure b) := Or.inl ⟨a, b, Ok.pure a, Ok.pure b, h⟩
theorem Agree.throw {e e' : Exc} : Agree Q (fun _ => M.throw e) (fun _ => M.throw e') := Or.inr ⟨⟨e, Er.throw e⟩, ⟨e', Er.throw e'⟩⟩

theorem Agree.mono {Q2 : α → β → Prop} {m : Nat → R α} {m' : Nat → R β} (hm : Agree Q m m') (h : ∀ a b, Q a b → Q2 a b) : Agree Q2 m m' := by
  rcases hm with ⟨a, b, h1, h2, h3⟩ | hm
  · exact Or.inl ⟨a, b, h1, h2, h a b h3⟩
  · exact Or.inr hm

theorem Agree.bind {m : Nat → R α} {m' : Nat → R β} {f : Nat → α → R γ} {f' : Nat → β → R δ} (hm : Agree Q m m')
    (hf : ∀ a b, Ok m a → Ok m' b → Q a b → Agree Q' (fun n => f n a) (fun n => f' n b)) : Agree Q' (fun n => m n >>= f n) (fun n => m' n >>= f' n) := by
  rcases hm with ⟨a, b, h1, h2, h3⟩ | ⟨⟨e, h1⟩, ⟨e', h2⟩⟩
  · rcases hf a b h1 h2 h3 with ⟨c, d, h4, h5, h6⟩ | ⟨⟨e, h4⟩, ⟨e', h5⟩⟩
    · exact Or.inl ⟨c, d, Ok.bind h1 h4, Ok.bind h2 h5, h6⟩
    · exact Or.inr ⟨⟨e, Er.bind2 h1 h4⟩, ⟨e', Er.bind2 h2 h5⟩⟩
  · exact Or.inr ⟨⟨e, Er.bind1 h1⟩, ⟨e', Er.bind1 h2⟩⟩

theorem Agree.rescue {m : Nat → R α} {m' : Nat → R β} {g : Nat → Exc → R α} {g' : Nat → Exc → R β} (hm : Agree Q m m')
    (hg : ∀ e e', Er m e → Er m' e' → Agree Q (fun n => g n e) (fun n => g' n e')) : Agree Q (fun n => M.rescue (m n) (g n)) (fun n => M.rescue (m' n) (g' n)) := by
  rcases hm with ⟨a, b, h1, h2, h3⟩ | ⟨⟨e, h1⟩, ⟨e', h2⟩⟩
  · exact Or.inl ⟨a, b, Ok.rescue h1, Ok.rescue h2, h3⟩
  · rcases hg e e' h1 h2 with ⟨c, d, h4, h5, h6⟩ | ⟨⟨e, h4⟩, ⟨e', h5⟩⟩
    · exact Or.inl ⟨c, d, Ok.rescue2 h1 h4, Ok.rescue2 h2 h5, h6⟩
    · exact Or.inr ⟨⟨e, Er.rescue h1 h4⟩, ⟨e', Er.rescue h2 h5⟩⟩

theorem Agree.handle {m : Nat → R α} {m' : Nat → R β} {f : Nat → α → R γ} {f' : Nat → β → R δ} {g : Nat → Exc → R γ} {g' : Nat → Exc → R δ} (hm : Agree Q m m')
    (hf : ∀ a b, Q a b → Agree Q' (fun n => f n a) (fun n => f' n b))
    (hg : ∀ e e', Er m e → Er m' e' → Agree Q' (fun n => g n e) (fun n => g' n e')) :
    Agree Q' (fun n => M.handle (m n) (f n) (g n)) (fun n => M.handle (m' n) (f' n) (g' n)) := by
  rcases hm with ⟨a, b, h1, h2, h3⟩ | ⟨⟨e, h1⟩, ⟨e', h2⟩⟩
  · rcases hf a b h3 with ⟨c, d, h4, h5, h6⟩ | ⟨⟨e, h4⟩, ⟨e', h5⟩⟩
    · exact Or.inl ⟨c, d, Ok.handle h1 h4, Ok.handle h2 h5, h6⟩
    · exact Or.inr ⟨⟨e, Er.handle h1 h4⟩, ⟨e', Er.handle h2 h5⟩⟩
  · rcases hg e e' h1 h2 with ⟨c, d, h4, h5, h6⟩ | ⟨⟨e, h4⟩, ⟨e', h5⟩⟩
    · exact Or.inl ⟨c, d, Ok.handle2 h1 h4, Ok.handle2 h2 h5, h6⟩
    · exact Or.inr ⟨⟨e, Er.handle2 h1 h4⟩, ⟨e', Er.handle2 h2 h5⟩⟩

theorem Agree.ite {c : Prop} [Decidable c] {a b : Nat → R α} {a' b' : Nat → R β} (h1 : c → Agree Q a a') (h2 : ¬ c → Agree Q b b') :
    Agree Q (fun n => if c then a n else b n) (fun n => if c then a' n else b' n) := by
  by_cases h : c
  · simp only [if_pos h]; exact h1 h
  · simp only [if_neg h]; exact h2 h

/-- An exception handler that raises again. -/
theorem Agree.reraise {m : Nat → R α} {m' : Nat → R β} {g g' : Exc → Exc} (hm : Agree Q m m') :
    Agree Q (fun n => M.rescue (m n) (fun e => M.throw (g e))) (fun n => M.rescue (m' n) (fun e => M.throw (g' e))) :=
  hm.rescue (fun _ _ _ _ => Agree.throw)

variable {W : World} {C : Config} {Γ : Env}

theorem Agree.step {Q : Val → Val → Prop} {h h' : Handler} {v v' : Val} {t t' : Ty}
    (hm : Agree Q (fun n => Ref.step W C Γ (Ref.run W C Γ n) h v t) (fun n => Ref.step W C Γ (Ref.run W C Γ n) h' v' t')) :
    Agree Q (fun n => Ref.run W C Γ n h v t) (fun n => Ref.run W C Γ n h' v' t') := by
  rcases hm with ⟨a, b, h1, h2, h3⟩ | ⟨⟨e, h1⟩, ⟨e', h2⟩⟩
  · exact Or.inl ⟨a, b, h1.step, h2.step, h3⟩
  · exact Or.inr ⟨⟨e, h1.step⟩, ⟨e', h2.step⟩⟩

theorem Agree.resolve {t : Ty} {e e' : Exc} {f : Nat → Handler → R α} {f' : Nat → Handler → R β}
    (hf : ∀ h, pick W C t = .ok h → Agree Q (fun n => f n h) (fun n => f' n h)) :
    Agree Q (fun n => Ref.resolve W C t e >>= f n) (fun n => Ref.resolve W C t e' >>= f' n) := by
  unfold Ref.resolve
  cases hp : pick W C t with
  | ok h => exact hf h hp
  | error c => exact Agree.throw (e := Ref.lookupError e c) (e' := Ref.lookupError e' c)

theorem Agree.loadWith {rec : Nat → Ref.Rec} {Q : Val → Val → Prop} {x x' : Val} {t : Ty} {a a' : Option Annotation}
    (hr : ∀ h, pick W C t = .ok h → Agree Q (fun n => rec n h x t) (fun n => rec n h x' t)) :
    Agree Q (fun n => Ref.loadWith W C (rec n) x t a) (fun n => Ref.loadWith W C (rec n) x' t a') := by
  unfold Ref.loadWith
  refine Agree.resolve (fun h hp => (hr h hp).rescue (fun e e' _ _ => ?_))
  cases e.isTL <;> cases e'.isTL <;> exact Agree.throw

end agree

/-! ## Loops -/

/-- Process the items one after the other. -/
def each {α β γ : Type} (one : α → R β) (upd : γ → β → γ) : List α → γ → R γ
  | [], acc => pure acc
  | x :: xs, acc => one x >>= fun y => each one upd xs (upd acc y)

section loops
variable {α α' β β' γ γ' : Type} {one : Nat → α → R β} {one' : Nat → α' → R β'} {upd : γ → β → γ} {upd' : γ' → β' → γ'}

theorem each_ok {l : List α} {rs : List β} (h : Zip2 (fun p r => Ok (fun n => one n p) r) l rs) : ∀ acc, Ok (fun n => each (one n) upd l acc) (rs.foldl upd acc) := by
  induction h with
  | nil => intro acc; exact Ok.pure acc
  | cons h _ ih => intro acc; exact Ok.bind h (ih _)

theorem each_total (l : List α) (h : ∀ p ∈ l, (∃ r, Ok (fun n => one n p) r) ∨ ∃ e, Er (fun n => one n p) e) :
    (∃ rs, Zip2 (fun p r => Ok (fun n => one n p) r) l rs) ∨
    ((∃ p ∈ l, ∃ e, Er (fun n => one n p) e) ∧ ∀ acc, ∃ e, Er (fun n => each (one n) upd l acc) e) := by
  induction l with
  | nil => exact Or.inl ⟨[], .nil⟩
  | cons p l ih =>
    rcases h p (by simp) with ⟨r, hr⟩ | ⟨e, he⟩
    · rcases ih (fun q hq => h q (by simp [hq])) with ⟨rs, hrs⟩ | ⟨⟨q, hq, e, he⟩, hall⟩
      · exact Or.inl ⟨r :: rs, .cons hr hrs⟩
      · refine Or.inr ⟨⟨q, by simp [hq], e, he⟩, fun acc => ?_⟩
        obtain ⟨e, he⟩ := hall (upd acc r)
        exact ⟨e, Er.bind2 hr he⟩
    · exact Or.inr ⟨⟨p, by simp, e, he⟩, fun acc => ⟨e, Er.bind1 he⟩⟩

theorem Zip2.perm {R : α → β → Prop} {l l' : List α} (h : l.Perm l') : ∀ {ms : List β}, Zip2 R l ms → ∃ ms', Zip2 R l' ms' ∧ ms.Perm ms' := by
  induction h with
  | nil => intro ms hz; exact ⟨ms, hz, .refl _⟩
  | cons a _ ih =>
    intro ms hz
    cases hz with
    | cons h1 h2 =>
      obtain ⟨ms', h3, h4⟩ := ih h2
      exact ⟨_, .cons h1 h3, h4.cons _⟩
  | swap a b l =>
    intro ms hz
    cases hz with
    | cons h1 h2 => cases h2 with
      | cons h3 h4 => exact ⟨_, .cons h3 (.cons h1 h4), .swap _ _ _⟩
  | trans _ _ ih1 ih2 =>
    intro ms hz
    obtain ⟨ms1, h1, h2⟩ := ih1 hz
    obtain ⟨ms2, h3, h4⟩ := ih2 h1
    exact ⟨ms2, h3, h2.trans h4⟩

/-- The outcome of a loop over the same items in another order. -/
theorem each_agree {Q : β → β' → Prop} {l : List α} {mid l' : List α'} (hz : Zip2 (fun p q => Agree Q (fun n => one n p) (fun n => one' n q)) l mid)
    (hp : mid.Perm l') (acc : γ) (acc' : γ') :
    (∃ rs ms rs', Ok (fun n => each (one n) upd l acc) (rs.foldl upd acc) ∧ Ok (fun n => each (one' n) upd' l' acc') (rs'.foldl upd' acc') ∧
      Zip2 Q rs ms ∧ ms.Perm rs' ∧ Zip2 (fun p r => Ok (fun n => one n p) r) l rs ∧ Zip2 (fun p r => Ok (fun n => one' n p) r) mid ms) ∨
    (∃ e, Er (fun n => each (one n) upd l acc) e) ∧ ∃ e, Er (fun n => each (one' n) upd' l' acc') e := by
  have t1 : ∀ p ∈ l, (∃ r, Ok (fun n => one n p) r) ∨ ∃ e, Er (fun n => one n p) e := by
    intro p hpm
    obtain ⟨q, _, h | ⟨h, _⟩⟩ := hz.mem_left hpm
    · obtain ⟨a, _, h, _⟩ := h; exact Or.inl ⟨a, h⟩
    · exact Or.inr h
  have t2 : ∀ q ∈ l', (∃ r, Ok (fun n => one' n q) r) ∨ ∃ e, Er (fun n => one' n q) e := by
    intro q hq
    obtain ⟨p, _, h | ⟨_, h⟩⟩ := hz.mem_right (hp.symm.subset hq)
    · obtain ⟨_, b, _, h, _⟩ := h; exact Or.inl ⟨b, h⟩
    · exact Or.inr h
  rcases each_total (upd := upd) l t1 with ⟨rs, hrs⟩ | ⟨⟨p, hpm, e, he⟩, h1⟩
  · have : ∃ ms, Zip2 Q rs ms ∧ Zip2 (fun p r => Ok (fun n => one' n p) r) mid ms := by
      clear hp t1 t2
      induction hrs generalizing mid with
      | nil => cases hz; exact ⟨[], .nil, .nil⟩
      | cons hr _ ih =>
        cases hz with
        | cons h1 h2 =>
          obtain ⟨ms, h3, h4⟩ := ih h2
          rcases h1 with ⟨a, b, h5, h6, h7⟩ | ⟨⟨e, he⟩, _⟩
          · have := Ok.unique hr h5; subst this
            exact ⟨b :: ms, .cons h7 h3, .cons h6 h4⟩
          · exact (Ok.not_er hr he).elim
    obtain ⟨ms, h1, h2⟩ := this
    obtain ⟨rs', h3, h4⟩ := h2.perm hp
    exact Or.inl ⟨rs, ms, rs', each_ok hrs acc, each_ok h3 acc', h1, h4, hrs, h2⟩
  · right
    refine ⟨h1 acc, ?_⟩
    rcases each_total (upd := upd') l' t2 with ⟨rs, hrs⟩ | ⟨_, h2⟩
    · exfalso
      obtain ⟨q, hq, ⟨_, _, h, _⟩ | ⟨_, e', h⟩⟩ := hz.mem_left hpm
      · exact Ok.not_er h he
      · obtain ⟨r, _, hr⟩ := hrs.mem_left (hp.subset hq)
        exact Ok.not_er hr h
    · exact h2 acc'
end loops

end TL
