import Verif.Props.Trace
/-!
# str() of exceptions (C32)
-/

namespace TL

variable {W : World} {C : Config} {F : String → Ty → Prop}

/-- All sub-exceptions, and their sub-exceptions and so on, are TypedloadExceptions. -/
inductive Printable : Exc → Prop
  | intro {e} : (∀ x ∈ e.subs, x.isTL = true) → (∀ x ∈ e.subs, Printable x) → Printable e

theorem Printable.mk {e : Exc} (h : ∀ x ∈ e.subs, x.isTL = true ∧ Printable x) : Printable e :=
  .intro (fun x hx => (h x hx).1) (fun x hx => (h x hx).2)
theorem Printable.subs {e : Exc} (h : Printable e) : ∀ x ∈ e.subs, x.isTL = true ∧ Printable x := by
  cases h with
  | intro h1 h2 => exact fun x hx => ⟨h1 x hx, h2 x hx⟩
theorem Printable.push {e : Exc} (h : Printable e) (i : TraceItem) : Printable (e.push i) := .mk (by rw [Exc.subs_push]; exact h.subs)
theorem Printable.of_nil {e : Exc} (h : e.subs = []) : Printable e := .mk (by rw [h]; intro x hx; cases hx)

mutual
theorem subexceptions_ok (n : Nat) : ∀ e : Exc, (∃ s, subexceptions W n e = .ok s) ↔ Printable e
  | .mk c m trace v t subs => by
    have := subLoop_ok n trace subs
    unfold subexceptions
    constructor
    · rintro ⟨s, hs⟩
      cases hl : subLoop W n trace subs with
      | error x => rw [hl] at hs; cases hs
      | ok l => exact .mk (this.1 ⟨l, hl⟩)
    · intro h
      obtain ⟨l, hl⟩ := this.2 h.subs
      rw [hl]; exact ⟨_, rfl⟩
theorem subLoop_ok (n : Nat) (trace : List TraceItem) : ∀ es : List Exc, (∃ s, subLoop W n trace es = .ok s) ↔ ∀ x ∈ es, x.isTL = true ∧ Printable x
  | [] => by simp [subLoop]
  | i :: rest => by
    have h1 := subexceptions_ok (n + 1) i
    have h2 := subLoop_ok n trace rest
    unfold subLoop
    constructor
    · rintro ⟨s, hs⟩
      split at hs
      · rename_i htl
        have hi : Printable i := by
          cases he : i.subs.isEmpty with
          | true => exact .of_nil (by simpa using he)
          | false =>
            rw [he] at hs
            cases hx : subexceptions W (n + 1) i with
            | error x => simp [hx] at hs
            | ok l => exact h1.1 ⟨l, hx⟩
        have hrest : ∃ s, subLoop W n trace rest = .ok s := by
          cases hx : subLoop W n trace rest with
          | ok l => exact ⟨l, rfl⟩
          | error x =>
            exfalso
            dsimp only at hs
            rw [hx] at hs
            split at hs <;> cases hs
        intro x hx
        rcases List.mem_cons.1 hx with h | h
        · subst h; exact ⟨htl, hi⟩
        · exact h2.1 hrest x h
      · cases hs
    · intro h
      have hi := h i (by simp)
      obtain ⟨l, hl⟩ := h2.2 (fun x hx => h x (by simp [hx]))
      obtain ⟨l', hl'⟩ := h1.2 hi.2
      rw [if_pos hi.1]
      dsimp only
      rw [hl, hl']
      by_cases hs : i.subs.isEmpty = true
      · rw [if_pos hs]; exact ⟨_, rfl⟩
      · rw [if_neg hs]; exact ⟨_, rfl⟩
end

/-- The text shows the line, apart from trailing white space. -/
def Mentions (text line : String) : Prop := ∃ a b ws, (∀ c ∈ ws.toList, c.isWhitespace = true) ∧ text ++ ws = a ++ line ++ b

theorem mem_takeWhile_true {p : Char → Bool} : ∀ {l : List Char} {c : Char}, c ∈ l.takeWhile p → p c = true
  | a :: l, c, h => by
    rw [List.takeWhile_cons] at h
    split at h
    · rename_i ha
      rcases List.mem_cons.1 h with h | h
      · subst h; exact ha
      · exact mem_takeWhile_true h
    · cases h

theorem rstrip_spec (s : String) : ∃ ws : String, (∀ c ∈ ws.toList, c.isWhitespace = true) ∧ rstrip s ++ ws = s := by
  refine ⟨String.ofList (s.toList.reverse.takeWhile Char.isWhitespace).reverse, ?_, ?_⟩
  · intro c hc
    rw [String.toList_ofList, List.mem_reverse] at hc
    exact mem_takeWhile_true hc
  · unfold rstrip
    rw [← String.ofList_append, ← List.reverse_append, List.takeWhile_append_dropWhile, List.reverse_reverse, String.ofList_toList]

theorem subLoop_mentions {n : Nat} {trace : List TraceItem} {es : List Exc} {s : String} (h : subLoop W n trace es = .ok s) {x : Exc} (hx : x ∈ es) :
    ∃ a b, s = a ++ (firstLine W (n + 1) x ++ "\n" ++ indentOf n ++ "  Path: " ++ renderPath W (trace ++ x.trace.tail)) ++ b := by
  induction es generalizing s with
  | nil => cases hx
  | cons i rest ih =>
    unfold subLoop at h
    split at h
    · dsimp only at h
      split at h
      · cases h
      · rename_i sub _
        split at h
        · cases h
        · rename_i tl htl
          cases h
          rcases List.mem_cons.1 hx with h | h
          · subst h
            exact ⟨"", "\n" ++ sub ++ tl, by simp [String.append_assoc]⟩
          · obtain ⟨a, b, rfl⟩ := ih htl h
            refine ⟨firstLine W (n + 1) i ++ "\n" ++ indentOf n ++ "  Path: " ++ renderPath W (trace ++ i.trace.tail) ++ "\n" ++ sub ++ a, b, ?_⟩
            simp only [String.append_assoc]
    · cases h

/-- When `str(e)` works, and what it shows. -/
theorem render_spec (e : Exc) : ((∃ text, render W e = .ok text) ↔ Printable e) ∧
    ∀ text, render W e = .ok text → (∃ rest, text = W.strMsg e.msg ++ "\nPath: " ++ renderPath W e.trace ++ rest) ∧
      ∀ x ∈ e.subs, Mentions text (W.strMsg x.msg ++ "\n  Path: " ++ renderPath W (e.trace ++ x.trace.tail)) := by
  have hind : indentOf 0 = "" := rfl
  constructor
  · unfold render
    dsimp only
    cases he : e.subs.isEmpty with
    | true => simp only [if_true]; exact ⟨fun _ => .of_nil (by simpa using he), fun _ => ⟨_, rfl⟩⟩
    | false =>
      simp only [Bool.false_eq_true, if_false]
      rw [← subexceptions_ok (W := W) 0 e]
      constructor
      · rintro ⟨t, ht⟩
        cases hs : subexceptions W 0 e with
        | error x => rw [hs] at ht; cases ht
        | ok l => exact ⟨l, rfl⟩
      · rintro ⟨l, hl⟩; rw [hl]; exact ⟨_, rfl⟩
  · intro text ht
    unfold render at ht
    dsimp only at ht
    have hf : firstLine W 0 e = W.strMsg e.msg := by simp [firstLine, hind]
    rw [hf] at ht
    split at ht
    · rename_i he
      cases ht
      refine ⟨⟨"", by simp⟩, ?_⟩
      intro x hx
      have : e.subs = [] := by simpa using he
      rw [this] at hx; cases hx
    · cases hs : subexceptions W 0 e with
      | error x => rw [hs] at ht; cases ht
      | ok l =>
        rw [hs] at ht
        cases ht
        refine ⟨⟨"\n" ++ rstrip l, by simp only [String.append_assoc]⟩, ?_⟩
        intro x hx
        obtain ⟨ws, hws, hl⟩ := rstrip_spec l
        have hsub : ∃ a b, l = a ++ (W.strMsg x.msg ++ "\n  Path: " ++ renderPath W (e.trace ++ x.trace.tail)) ++ b := by
          cases e with
          | mk c m trace v t subs =>
            unfold subexceptions at hs
            cases hl2 : subLoop W 0 trace subs with
            | error x => rw [hl2] at hs; cases hs
            | ok l' =>
              rw [hl2] at hs
              cases hs
              obtain ⟨a, b, rfl⟩ := subLoop_mentions hl2 hx
              refine ⟨indentOf 0 ++ "Exceptions:\n" ++ a ++ indentOf 1, b, ?_⟩
              have h2 : ("\n" ++ "" ++ "  Path: " : String) = "\n  Path: " := rfl
              simp only [Exc.trace_mk, firstLine, hind]
              rw [← h2]
              simp only [String.append_assoc]
        obtain ⟨a, b, hab⟩ := hsub
        refine ⟨W.strMsg e.msg ++ "\nPath: " ++ renderPath W e.trace ++ "\n" ++ a, b, ws, hws, ?_⟩
        have : W.strMsg e.msg ++ "\nPath: " ++ renderPath W e.trace ++ "\n" ++ rstrip l ++ ws =
          W.strMsg e.msg ++ "\nPath: " ++ renderPath W e.trace ++ "\n" ++ (rstrip l ++ ws) := by simp only [String.append_assoc]
        rw [this, hl, hab]
        simp only [String.append_assoc]

/-! ## Which exceptions can be raised -/

/-- What a step guarantees about sub-exceptions. -/
def PrintInv (W : World) (C : Config) (h : Handler) (_ : Val) (t : Ty) (o : Except Exc Val) : Prop :=
  pick W C t = .ok h → ∀ e, o = .error e → e.isTL = true → Printable e

theorem print_step (hd : C.Default) {G : Ty → Prop} (hen : ∀ n, G (.enum n) → (W.enm n).hints = []) (h : Handler) (v : Val) (t : Ty)
    (o : Except Exc Val) (hg : G t) (hs : StepSem W C F (PrintInv W C) h v t o) : PrintInv W C h v t o := by
  intro hp e he htl
  have hpk := picked hd hp
  have hload : ∀ {x u a e}, LoadSem W C (PrintInv W C) x u a (.error e) → e.isTL = true → Printable e := by
    intro x u a e h htl
    cases h with
    | noHandler hn => rw [lookupExc_default hd hn]; exact .of_nil rfl
    | err hp h =>
      unfold loadExc at htl ⊢
      split
      · rename_i h'; exact (h hp _ rfl h').push _
      · exact .of_nil rfl
  have hel : ∀ {i : Nat} {e' : Exc}, (e'.isTL = true → Printable e') → Printable (elemError v t i e') := by
    intro i e' h
    unfold elemError
    split
    · rename_i h'; exact (h h').push _
    · split <;> exact .of_nil rfl
  have htry : ∀ {order n r es}, TrySem W C (PrintInv W C) v t order 0 .none [] (.ok (n, r, es)) → ∀ x ∈ es, x.isTL = true ∧ Printable x := by
    intro order n r es h x hx
    rcases h.refused rfl x hx with h | ⟨u, hu, e', hc, htl', rfl⟩
    · cases h
    · refine ⟨by simpa using htl', ?_⟩
      cases hc with
      | noHandler hn => rw [lookupExc_default hd hn]; exact .of_nil rfl
      | call hp' hP => exact (hP hp' _ rfl htl').push _
  cases hs with
  | leaf hleaf h =>
    subst he
    rcases leaf_located hpk hleaf h with ⟨c, m, rfl⟩ | ⟨c, rfl⟩ <;> exact .of_nil rfl
  | iterLookup _ hn => cases he; rw [lookupExc_default hd hn]; exact .of_nil rfl
  | iterErr hk _ hx hp' hit =>
    cases he
    obtain ⟨j, x, hj, ⟨e', h, rfl⟩ | ⟨c, rfl⟩⟩ := hit.error rfl
    · refine hel (fun h' => ?_)
      cases h with
      | call _ hP => exact hP hp' _ rfl h'
    · exact hel (fun _ => .of_nil rfl)
  | tupErr _ hx _ htup =>
    cases he
    obtain ⟨j, x, u, hj, hu, e', h, rfl⟩ := htup.error rfl
    refine hel (fun h' => ?_)
    cases h with
    | noHandler => exact .of_nil rfl
    | call hp' _ hP => exact hP hp' _ rfl h'
  | dictLookup _ hn => cases he; rw [lookupExc_default hd hn]; exact .of_nil rfl
  | @dictErr _ _ _ _ _ _ e0 hdata hk' hv' hf =>
    cases he
    by_cases hattr : e0.cls.isAttr = true
    · rw [if_pos hattr]; exact .of_nil rfl
    · rw [if_neg hattr] at htl ⊢
      obtain ⟨p, hpm, h | h | ⟨rfl, k', h, hh⟩⟩ := hf.error rfl
      · exact hload h htl
      · exact hload h htl
      · cases htl
  | obj hob =>
    subst he
    cases hob with
    | stop => cases htl
    | mangle _ _ he => obtain ⟨cl, m, h1, rfl⟩ := he; exact .of_nil rfl
    | noDict => exact .of_nil rfl
    | missing => exact .of_nil rfl
    | extra => exact .of_nil rfl
    | extraKey => cases htl
    | field hi hm _ hfs =>
      obtain ⟨m, x, ft, hmem, hh, ⟨h', e', hp', hP, rfl⟩ | ⟨c', hn, rfl⟩⟩ := hfs.error rfl
      · split
        · rename_i htl'; exact (hP hp' _ rfl htl').push _
        · rename_i hn; rw [if_neg hn] at htl; exact absurd htl hn
      · rw [lookupExc_default hd hn]; exact .of_nil rfl
    | construct _ _ _ _ hcon =>
      unfold constructExc
      split
      · exact .of_nil rfl
      · split <;> exact .of_nil rfl
  | unionCrash _ hord htry =>
    cases he
    rw [(htry.crashed rfl).1] at htl; cases htl
  | unionNone _ hord h => cases he; exact .mk (htry h)
  | unionMany _ hord h => cases he; exact .mk (htry h)
  | enumHints hn hh =>
    obtain ⟨es', rfl, hes⟩ := hh.error he
    have h0 := hen _ hg
    refine .of_nil ?_
    show es' = []
    rw [List.eq_nil_iff_forall_not_mem]
    intro x hx
    rcases hes x hx with h | ⟨h, _⟩ | ⟨u, hu, h⟩
    · cases h
    · exact h h0
    · rw [h0] at hu; cases hu
  | fref hf _ hl' => subst he; exact hload hl' htl
  | newtype hl' => subst he; exact hload hl' htl
  | custom hi _ => exact absurd hi (not_installed hd _)
  | _ => cases he <;> exact .of_nil rfl

/-- **C32**. If no Enum that can be met has type annotations, `str(e)` works for every TypedloadException leaving `load`: the text
starts with the description and the path, and mentions the description of every sub-exception, with its path from the root.
The missing case: Enums with annotations, for which the claim is false (`C32_enum_counterexample`). -/
theorem C32_render_partial (hd : C.Default) {s s' : LState} (hs : Reachable W C s) {v : Val} {t : Ty} {e : Exc}
    (hen : ∀ n, Meets W C s t (.enum n) → (W.enm n).hints = []) (h : Raises W C s v t e s') (htl : e.isTL = true) :
    ∃ text, render W e = .ok text ∧ (∃ rest, text = W.strMsg e.msg ++ "\nPath: " ++ renderPath W e.trace ++ rest) ∧
      ∀ x ∈ e.subs, Mentions text (W.strMsg x.msg ++ "\n  Path: " ++ renderPath W (e.trace ++ x.trace.tail)) := by
  have hpr : Printable e := by
    rcases h.sem (Meets.closed s t) (P := PrintInv W C) (fun h v t o hg hs => print_step hd hen h v t o hg hs)
        (hs.good_meets t) .self with ⟨hh, e', hp, hP, rfl⟩ | ⟨c, hp, rfl⟩
    · unfold loadExc at htl ⊢
      split
      · rename_i h'; exact (hP hp _ rfl h').push _
      · exact .of_nil rfl
    · rw [lookupExc_default hd hp]; exact .of_nil rfl
  obtain ⟨text, ht⟩ := (render_spec e).1.2 hpr
  exact ⟨text, ht, (render_spec e).2 text ht⟩

/-- For any exception object, `str(e)` works iff all exceptions nested in it are TypedloadExceptions; otherwise it raises. -/
theorem C32_render_iff (e : Exc) : (∃ text, render W e = .ok text) ↔ Printable e := (render_spec e).1

/-! ## The text of paths, and nested sub-exceptions -/

/-- How one step of a path is written: fields and forward references by name, positions and integer keys in brackets, other keys and
values by their `str()`, union members by the text of the type, steps without annotation as `None`. -/
def Segment (W : World) (i : TraceItem) : String :=
  match i.ann with
  | none => "None"
  | some (.field n) => n
  | some (.forwardref n) => n
  | some (.index j) => "[" ++ toString j ++ "]"
  | some (.union t) => W.strTy t
  | some (.key x) => bracket x
  | some (.value x) => bracket x
where
  /-- integers in brackets -/
  bracket (x : Val) : String := match x with
    | .int n => "[" ++ toString n ++ "]"
    | .bool b => if b then "[1]" else "[0]"
    | x => W.strOf x

/-- The path below the root: every step preceded by a dot. -/
def PathText (W : World) : List TraceItem → String
  | [] => ""
  | i :: rest => "." ++ Segment W i ++ PathText W rest

theorem annText_segment (i : TraceItem) : (match i.ann with
    | some a => annText W a
    | none => "None") = Segment W i := by
  obtain ⟨v, t, a⟩ := i
  cases a with
  | none => rfl
  | some a =>
    cases a with
    | key x => cases x <;> first | rfl | (rename_i b; cases b <;> rfl)
    | value x => cases x <;> first | rfl | (rename_i b; cases b <;> rfl)
    | _ => rfl

theorem intercalate_segments : ∀ (p : String) (tr : List TraceItem), ".".intercalate (p :: tr.map (Segment W)) = p ++ PathText W tr
  | p, [] => by simp [PathText]
  | p, i :: rest => by
    have := intercalate_segments (Segment W i) rest
    rw [List.map_cons, String.intercalate_cons_cons, this]
    simp only [PathText, String.append_assoc]

/-- Joining the segments of a path. -/
def joinSegs (path : List String) : String :=
  match path with
  | [] => ""
  | p :: ps =>
    if ps.isEmpty && p == "None" then "."
    else if !ps.isEmpty && p == "None" then ".".intercalate ("" :: ps)
    else ".".intercalate (p :: ps)

theorem renderPath_eq (l : List TraceItem) : renderPath W l = joinSegs (l.map (Segment W)) := by
  show joinSegs (l.map _) = _
  congr 1
  exact List.map_congr_left (fun i _ => annText_segment i)

theorem renderPath_root (v : Val) (t : Ty) (tr : List TraceItem) :
    renderPath W (⟨v, t, none⟩ :: tr) = if tr.isEmpty then "." else PathText W tr := by
  rw [renderPath_eq]
  cases tr with
  | nil => rfl
  | cons i rest =>
    have h2 := intercalate_segments "" (i :: rest) (W := W)
    show ".".intercalate ("" :: (i :: rest).map (Segment W)) = _
    rw [h2]; simp

/-- What follows the path: nothing, or the list of sub-exceptions. -/
def Ending (e : Exc) (rest : String) : Prop := (e.subs = [] ∧ rest = "") ∨ (e.subs ≠ [] ∧ ∃ more, rest = "\nExceptions:" ++ more)

theorem dropWhile_append_of_exists {p : Char → Bool} : ∀ {l : List Char} (m : List Char), (∃ c ∈ l, p c = false) → (l ++ m).dropWhile p = l.dropWhile p ++ m
  | [], m, h => by obtain ⟨c, hc, _⟩ := h; cases hc
  | a :: l, m, h => by
    rw [List.cons_append, List.dropWhile_cons, List.dropWhile_cons]
    split
    · rename_i ha
      refine dropWhile_append_of_exists m ?_
      obtain ⟨c, hc, hp⟩ := h
      rcases List.mem_cons.1 hc with h | h
      · subst h; rw [ha] at hp; cases hp
      · exact ⟨c, h, hp⟩
    · rfl

theorem rstrip_prefix (a b : String) (h : ∃ c, a.toList.getLast? = some c ∧ c.isWhitespace = false) : ∃ r, rstrip (a ++ b) = a ++ r := by
  obtain ⟨c, hc, hw⟩ := h
  obtain ⟨l, hl⟩ : ∃ l, a.toList = l ++ [c] := by
    rcases List.eq_nil_or_concat a.toList with h | ⟨l, x, h⟩
    · rw [h] at hc; cases hc
    · rw [h, List.concat_eq_append, List.getLast?_append] at hc
      simp at hc
      exact ⟨l, by rw [h, List.concat_eq_append, hc]⟩
  have hrev : a.toList.reverse = c :: l.reverse := by rw [hl]; simp
  have h0 : a.toList.reverse.dropWhile Char.isWhitespace = a.toList.reverse := by
    rw [hrev, List.dropWhile_cons, if_neg (by simp [hw])]
  unfold rstrip
  rw [String.toList_append, List.reverse_append]
  rcases Classical.em (∃ x ∈ b.toList.reverse, x.isWhitespace = false) with h | h
  · rw [dropWhile_append_of_exists _ h, List.reverse_append, List.reverse_reverse, String.ofList_append, String.ofList_toList]
    exact ⟨_, rfl⟩
  · refine ⟨"", ?_⟩
    have hall : ∀ x ∈ b.toList.reverse, x.isWhitespace = true := fun x hx => by
      cases hx' : x.isWhitespace with
      | true => rfl
      | false => exact absurd ⟨x, hx, hx'⟩ h
    rw [List.dropWhile_append_of_pos (fun x hx => hall x hx), h0, List.reverse_reverse, String.ofList_toList]
    simp

theorem render_text {e : Exc} {text : String} (ht : render W e = .ok text) :
    ∃ rest, text = W.strMsg e.msg ++ "\nPath: " ++ renderPath W e.trace ++ rest ∧ Ending e rest := by
  unfold render at ht
  dsimp only at ht
  have hf : firstLine W 0 e = W.strMsg e.msg := by
    have hind : indentOf 0 = "" := rfl
    simp [firstLine, hind]
  rw [hf] at ht
  split at ht
  · rename_i he
    cases ht
    exact ⟨"", by simp, .inl ⟨by simpa using he, rfl⟩⟩
  · rename_i he
    cases hs : subexceptions W 0 e with
    | error x => rw [hs] at ht; cases ht
    | ok l =>
      rw [hs] at ht
      cases ht
      refine ⟨"\n" ++ rstrip l, by simp only [String.append_assoc], .inr ⟨by simpa using he, ?_⟩⟩
      have hl : ∃ l', l = "Exceptions:" ++ l' := by
        cases e with
        | mk c m trace v t subs =>
          unfold subexceptions at hs
          cases hl2 : subLoop W 0 trace subs with
          | error x => rw [hl2] at hs; cases hs
          | ok l' =>
            rw [hl2] at hs
            cases hs
            refine ⟨"\n" ++ l', ?_⟩
            have h1 : indentOf 0 ++ "Exceptions:\n" = "Exceptions:" ++ "\n" := by decide
            rw [h1, String.append_assoc]
      obtain ⟨l', rfl⟩ := hl
      obtain ⟨r, hr⟩ := rstrip_prefix "Exceptions:" l' ⟨':', by decide, by decide⟩
      rw [hr]
      exact ⟨r, by rw [← String.append_assoc]; rfl⟩

/-- **C32**, the path: for a supported type, a text returned by `str(e)` is the description, then `Path: `, then the steps that lead to
the wrong data, each after a dot (`.` alone for the root itself), then nothing or the list of sub-exceptions. -/
theorem C32_path (hd : C.Default) {s s' : LState} (hs : Reachable W C s) {v : Val} {t : Ty} {e : Exc} (h : Raises W C s v t e s')
    (htl : e.isTL = true) (hsup : ∃ i, index W C t = .ok i) {text : String} (ht : render W e = .ok text) :
    ∃ tr rest, e.trace = ⟨v, t, none⟩ :: tr ∧ Ending e rest ∧
      text = W.strMsg e.msg ++ "\nPath: " ++ (if tr.isEmpty then "." else PathText W tr) ++ rest := by
  rcases C31_trace hd hs h htl with ⟨h1, _⟩ | ⟨tr, w, r, h1, _⟩
  · obtain ⟨i, hi⟩ := hsup; rw [h1] at hi; cases hi
  · obtain ⟨rest, h2, h3⟩ := render_text ht
    refine ⟨tr, rest, h1, h3, ?_⟩
    rw [h2, h1, renderPath_root]

/-- The exceptions nested in `e`: `x` is `n` levels below. -/
inductive Nested (e : Exc) : Nat → Exc → Prop
  | self : Nested e 0 e
  | sub {n p x} : Nested e n p → x ∈ p.subs → Nested e (n + 1) x

theorem subexceptions_sub {n : Nat} {p : Exc} {l : String} (h : subexceptions W n p = .ok l) {x : Exc} (hx : x ∈ p.subs) :
    (∃ a b, l = a ++ (firstLine W (n + 1) x ++ "\n" ++ indentOf n ++ "  Path: " ++ renderPath W (p.trace ++ x.trace.tail)) ++ b) ∧
    (x.subs.isEmpty = false → ∃ a l' b, subexceptions W (n + 1) x = .ok l' ∧ l = a ++ l' ++ b) := by
  cases p with
  | mk c m trace v t subs =>
    unfold subexceptions at h
    cases hl2 : subLoop W n trace subs with
    | error x => rw [hl2] at h; cases h
    | ok l' =>
      rw [hl2] at h
      cases h
      constructor
      · obtain ⟨a, b, rfl⟩ := subLoop_mentions hl2 hx
        exact ⟨indentOf n ++ "Exceptions:\n" ++ a, b, by simp only [Exc.trace_mk, String.append_assoc]⟩
      · intro hne
        have key : ∀ (es : List Exc) (s : String), subLoop W n trace es = .ok s → x ∈ es →
            ∃ a l' b, subexceptions W (n + 1) x = .ok l' ∧ s = a ++ l' ++ b := by
          intro es
          induction es with
          | nil => intro s _ hx; cases hx
          | cons i rest ih =>
            intro s h hx
            unfold subLoop at h
            split at h
            · dsimp only at h
              split at h
              · cases h
              · rename_i sub hsub
                split at h
                · cases h
                · rename_i tl htl
                  cases h
                  rcases List.mem_cons.1 hx with h | h
                  · subst h
                    rw [hne] at hsub
                    exact ⟨_, sub, tl, by simpa using hsub, rfl⟩
                  · obtain ⟨a, l', b, h1, rfl⟩ := ih tl htl h
                    exact ⟨firstLine W (n + 1) i ++ "\n" ++ indentOf n ++ "  Path: " ++ renderPath W (trace ++ i.trace.tail) ++ "\n" ++ sub ++ a,
                      l', b, h1, by simp only [String.append_assoc]⟩
            · cases h
        obtain ⟨a, l1, b, h1, rfl⟩ := key subs l' hl2 hx
        exact ⟨indentOf n ++ "Exceptions:\n" ++ a, l1, b, h1, by simp only [String.append_assoc]⟩

/-- **C32**, nested exceptions: `str(e)` mentions every exception nested in `e` at any depth, indented by its depth, with a path (for
the direct sub-exceptions this is the path from the root, see `C32_render_partial`; deeper down the path starts at the union that was tried). -/
theorem C32_nested {e : Exc} {text : String} (ht : render W e = .ok text) {n : Nat} {p x : Exc} (hp : Nested e n p) (hx : x ∈ p.subs) :
    Mentions text (String.ofList (List.replicate (2 * (n + 1)) ' ') ++ W.strMsg x.msg ++ "\n" ++ String.ofList (List.replicate (2 * n) ' ') ++
      "  Path: " ++ renderPath W (p.trace ++ x.trace.tail)) := by
  have hne : e.subs ≠ [] := by
    intro h0
    have hno : ∀ {n p}, Nested e n p → p = e := by
      intro n p h
      induction h with
      | self => rfl
      | sub _ hx ih => subst ih; rw [h0] at hx; cases hx
    have := hno hp; subst this; rw [h0] at hx; cases hx
  unfold render at ht
  dsimp only at ht
  rw [if_neg (by simpa using hne)] at ht
  cases hs : subexceptions W 0 e with
  | error x => rw [hs] at ht; cases ht
  | ok l =>
    rw [hs] at ht
    cases ht
    have key : ∀ {n p}, Nested e n p → p.subs ≠ [] → ∃ a l' b, subexceptions W n p = .ok l' ∧ l = a ++ l' ++ b := by
      intro n p h
      induction h with
      | self => intro _; exact ⟨"", l, "", hs, by simp⟩
      | @sub n p x hp hx ih =>
        intro hsub
        obtain ⟨a, l', b, h1, h2⟩ := ih (fun h0 => by rw [h0] at hx; cases hx)
        obtain ⟨a', l'', b', h3, rfl⟩ := (subexceptions_sub h1 hx).2 (by simpa using hsub)
        exact ⟨a ++ a', l'', b' ++ b, h3, by rw [h2]; simp only [String.append_assoc]⟩
    obtain ⟨a, l', b, h1, h2⟩ := key hp (fun h0 => by rw [h0] at hx; cases hx)
    obtain ⟨⟨a', b', h3⟩, _⟩ := subexceptions_sub h1 hx
    obtain ⟨ws, hws, hl⟩ := rstrip_spec l
    refine ⟨firstLine W 0 e ++ "\nPath: " ++ renderPath W e.trace ++ "\n" ++ a ++ a', b' ++ b, ws, hws, ?_⟩
    have hl' : firstLine W 0 e ++ "\nPath: " ++ renderPath W e.trace ++ "\n" ++ rstrip l ++ ws =
      firstLine W 0 e ++ "\nPath: " ++ renderPath W e.trace ++ "\n" ++ (rstrip l ++ ws) := by simp only [String.append_assoc]
    rw [hl', hl, h2, h3]
    simp only [firstLine, indentOf, String.append_assoc]

/-- The hypotheses hold for `Union[int, List[int]]`, whose exceptions have sub-exceptions. -/
example : (∀ n, Meets Sample.W Sample.C (fresh []) (.union [.prim .int, .coll .list (.prim .int)]) (.enum n) → (Sample.W.enm n).hints = []) ∧
    ∃ e s', Raises Sample.W Sample.C (fresh []) (.str "x") (.union [.prim .int, .coll .list (.prim .int)]) e s' ∧ e.isTL = true ∧ e.subs.length = 2 := by
  refine ⟨?_, _, _, ⟨5, rfl⟩, rfl, rfl⟩
  have key : ∀ u, Meets Sample.W Sample.C (fresh []) (.union [.prim .int, .coll .list (.prim .int)]) u →
      u = .union [.prim .int, .coll .list (.prim .int)] ∨ u = .coll .list (.prim .int) ∨ u = .prim .int := by
    intro u h
    induction h with
    | self => simp
    | known h => obtain ⟨fr, h1, h2⟩ := h; cases h1; cases h2
    | coll _ ih => simp at ih; simp [ih]
    | tuple _ _ ih => simp at ih
    | dictKey _ ih => simp at ih
    | dictVal _ ih => simp at ih
    | union _ hu ih => simp at ih; subst ih; simp at hu; rcases hu with h | h <;> simp [h]
    | newtype _ ih => simp at ih
    | enum _ _ ih => simp at ih
    | custom hi _ _ => exact absurd hi (not_installed (C := Sample.C) rfl _)
    | field _ hf ht ih => simp at ih
  intro n h
  rcases key _ h with h | h | h <;> cases h

/-- A nested case: `Union[Union-typed list, ...]`: the error of `List[Union[int, None]]` inside a union has exceptions two levels down,
and `str()` works. -/
example : ∃ e s' p x text, Raises Sample.W Sample.C (fresh []) (.list [.str "x"]) (.union [.coll .list (.union [.prim .int, .prim .none]), .prim .none]) e s' ∧
    e.isTL = true ∧ (∃ i, index Sample.W Sample.C (.union [.coll .list (.union [.prim .int, .prim .none]), .prim .none]) = .ok i) ∧
    Nested e 1 p ∧ x ∈ p.subs ∧ render Sample.W e = .ok text :=
  ⟨_, _, _, _, _, ⟨5, rfl⟩, rfl, ⟨_, rfl⟩, .sub .self (.head _), .head _, rfl⟩

/-- The full claim is false: for an Enum with annotations the plain ValueError of the Enum class ends up among the
sub-exceptions, and `str(e)` raises AttributeError. -/
theorem C32_enum_counterexample : ∃ e s', Raises Sample.W Sample.C (fresh []) (.tuple [.int 3, .int 4]) (.enum 1) e s' ∧ e.isTL = true ∧
    render Sample.W e = .error .attr := ⟨_, _, ⟨5, rfl⟩, rfl, rfl⟩

end TL
