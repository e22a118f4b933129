import Verif.Props.RoundTrip
/-!
# C44: dump and load use the same names

`dumpKey D f` is the name found in the metadata of the field under the configured key, the Python name if there is none.
-/

namespace TL

/-! ## Specification -/

/-- How the attribute `x` of field `f` comes back: it was written as `y`, and `y` loaded into the type of the field; or it was not written, and
the default is used, or the class decides (`init=False`). -/
inductive Returned (W : World) (C : Config) (D : DConfig) (sd : DState) (s : LState) (k : ObjKind) (shown : Field → Val → Prop) (f : Field) (x : Val) :
    List (String × Val) → Prop
  | written {a t y z sd'} : shown f x → Dumps W D sd x a y sd' → FieldTy k f t → AcceptsAs W C s y t z → Returned W C D sd s k shown f x [(f.name, z)]
  | default {d} : ¬ shown f x → f.default = some d → Returned W C D sd s k shown f x [(f.name, d)]
  | unset : ¬ shown f x → f.default = none → f.init = false → Returned W C D sd s k shown f x []

/-- The attributes written by the Dumper: see `ToShow`, `ToShowAttr`. -/
def ShownBy (D : DConfig) (k : ObjKind) : Field → Val → Prop := if k = .attrs then ToShowAttr D else ToShow D

/-! ## Proof -/

variable {W : World} {C : Config} {D : DConfig}

theorem strKeys_sub {kvs : List (Val × Val)} (h : Distinct (kvs.map (·.1))) : (strKeys kvs).Nodup := by
  induction kvs with
  | nil => exact List.nodup_nil
  | cons p kvs ih =>
    unfold Distinct at h
    rw [List.map_cons, List.pairwise_cons] at h
    have ih := ih h.2
    unfold strKeys at ih ⊢
    rw [List.filterMap_cons]
    cases hk : strKey p.1 with
    | none => exact ih
    | some n =>
      refine List.nodup_cons.2 ⟨fun hm => ?_, ih⟩
      have hp : p.1 = .str n := by
        revert hk; cases p.1 <;> simp [strKey]
      obtain ⟨x, hx⟩ := mem_strKeys.1 hm
      have := h.1 _ (List.mem_map.2 ⟨_, hx, rfl⟩)
      rw [hp] at this
      simp [pyEq] at this

theorem dumped_instance (hdd : D.Default) {sd sd' : DState} (hsd : DReachable W D sd) {c : Nat} {vals : List (String × Val)}
    (hv : Legal W (.inst c vals)) {t : Ty} {d : Val} (h : Dumps W D sd (.inst c vals) t d sd') :
    ((W.cls c).kind = .dataclass ∨ (W.cls c).kind = .attrs) ∧
    ∃ kvs, d = .dict kvs ∧ DumpedAs (W.cls c).fields (ShownBy D (W.cls c).kind) (dumpKey D) (fun _ x y => ∃ a s1, Dumps W D sd x a y s1) vals kvs := by
  refine ⟨hv.top.1, ?_⟩
  rcases hv.top.1 with hk | hk
  · obtain ⟨kvs, rfl, h1, h2, h3⟩ := C39_dataclass hdd hsd hv hk h
    unfold ShownBy; rw [hk]
    exact ⟨kvs, rfl, h1, fun f hf x hx hs hu => by obtain ⟨y, hy, s1, hd⟩ := h2 f hf x hx hs hu; exact ⟨y, hy, _, s1, hd⟩, h3⟩
  · obtain ⟨kvs, rfl, h1, h2, h3⟩ := C39_attrs hdd hsd hv hk h
    unfold ShownBy; rw [hk]
    exact ⟨kvs, rfl, h1, fun f hf x hx hs hu => by obtain ⟨y, hy, s1, hd⟩ := h2 f hf x hx hs hu; exact ⟨y, hy, _, s1, hd⟩, h3⟩

theorem extName_class {k : ObjKind} (hk : k = .dataclass ∨ k = .attrs) (hm : D.mangleKey = C.mangleKey) {f : Field}
    (hf : k = .dataclass → aget f.metadata D.mangleKey ≠ some "") : extName C k f = dumpKey D f := by
  rcases hk with rfl | rfl
  · exact extName_dataclass hm (hf rfl)
  · exact extName_attrs hm

theorem zip2_mem {α β : Type} {P Q : α → β → Prop} {l : List α} {m : List β} (h : Zip2 P l m) (hpq : ∀ a ∈ l, ∀ b, P a b → Q a b) : Zip2 Q l m := by
  induction h with
  | nil => exact .nil
  | cons h _ ih => exact .cons (hpq _ (by simp) _ h) (ih (fun a ha => hpq a (by simp [ha])))

/-- **C44** The dictionary dumped from an instance of a dataclass or attrs class (with the same metadata key, distinct external names, and for
dataclasses no empty one), when loaded into the class, gives every field what was written for the attribute of that field. -/
theorem C44_back (hd : C.Default) (hdd : D.Default) (hm : D.mangleKey = C.mangleKey) {sd sd' : DState} (hsd : DReachable W D sd) {s s' : LState}
    (hs : Reachable W C s) {c : Nat} {vals : List (String × Val)} (hv : Legal W (.inst c vals))
    (hn : ((W.cls c).fields.map (dumpKey D)).Nodup) (he : (W.cls c).kind = .dataclass → ∀ f ∈ (W.cls c).fields, aget f.metadata D.mangleKey ≠ some "")
    {t : Ty} {d : Val} (h : Dumps W D sd (.inst c vals) t d sd') {r : Val} (hl : Loads W C s d (.obj c) r s') :
    ∃ ls, Zip2 (fun f l => ∃ x, (f.name, x) ∈ vals ∧ Returned W C D sd s (W.cls c).kind (ShownBy D (W.cls c).kind) f x l) (W.cls c).fields ls ∧
      Built W c ls.flatten r := by
  obtain ⟨hk, kvs, rfl, h1, h2, h3⟩ := dumped_instance hdd hsd hv h
  obtain ⟨_, hnames, hnd⟩ := hv.top
  have hnf : ((W.cls c).fields.map (·.name)).Nodup := hnames ▸ hnd
  have hext : ∀ f ∈ (W.cls c).fields, extName C (W.cls c).kind f = dumpKey D f := fun f hf => extName_class hk hm (fun h => he h f hf)
  have hw : WFNames C (W.cls c).kind (W.cls c).fields := ⟨hnf, by rw [List.map_congr_left hext]; exact hn⟩
  have hnt : (W.cls c).kind ≠ .typeddict := by rcases hk with h | h <;> rw [h] <;> simp
  obtain ⟨ls, hz, hb⟩ := C21_fields hd hs hnt hw (Or.inl rfl) (strKeys_sub h3) hl
  refine ⟨ls, zip2_mem hz (fun f hf l hl => ?_), hb⟩
  have hval : ∃ x, (f.name, x) ∈ vals := by
    have : f.name ∈ vals.map (·.1) := hnames ▸ List.mem_map.2 ⟨f, hf, rfl⟩
    obtain ⟨q, hq, e⟩ := List.mem_map.1 this
    exact ⟨q.2, by rw [← e]; exact hq⟩
  obtain ⟨x, hx⟩ := hval
  have hinj : ∀ g ∈ (W.cls c).fields, dumpKey D g = dumpKey D f → g = f := fun g hg he => nodup_map_inj hn hg hf he
  have hshown : ∀ y, (Val.str (dumpKey D f), y) ∈ kvs → ShownBy D (W.cls c).kind f x := by
    intro y hy
    obtain ⟨g, hg, x', hx', hsh, hk'⟩ := (h1 (.str (dumpKey D f))).1 (List.mem_map.2 ⟨_, hy, rfl⟩)
    simp only [Val.str.injEq] at hk'
    have := hinj g hg hk'.symm
    subst this
    have e1 := aget_of_mem hnd hx
    rw [aget_of_mem hnd hx'] at e1
    cases e1
    exact hsh
  have hnot : extName C (W.cls c).kind f ∉ strKeys kvs → ¬ ShownBy D (W.cls c).kind f x := by
    intro hno hsh
    obtain ⟨y, hy, _⟩ := h2 f hf x hx hsh hinj
    rw [hext f hf] at hno
    exact hno (mem_strKeys.2 ⟨y, hy⟩)
  refine ⟨x, hx, ?_⟩
  cases hl with
  | @loaded y t z h4 h5 h6 =>
    rw [hext f hf] at h4
    have hsh := hshown y h4
    obtain ⟨y', hy', a, s1, hdu⟩ := h2 f hf x hx hsh hinj
    have e1 := dget_of_mem_str (strKeys_sub h3) h4
    rw [dget_of_mem_str (strKeys_sub h3) hy'] at e1
    cases e1
    exact .written hsh hdu h5 h6
  | default h4 h5 => exact .default (hnot h4) h5
  | unset h4 h5 h6 => exact .unset (hnot h4) h5 h6

/-- **C44** The keys that are written are the names by which load finds the fields (`extName`, see C21 and C22) of the attributes that are to be
shown, and no others. -/
theorem C44_keys (hdd : D.Default) (hm : D.mangleKey = C.mangleKey) {sd sd' : DState} (hsd : DReachable W D sd)
    {c : Nat} {vals : List (String × Val)} (hv : Legal W (.inst c vals))
    (he : (W.cls c).kind = .dataclass → ∀ f ∈ (W.cls c).fields, aget f.metadata D.mangleKey ≠ some "")
    {t : Ty} {d : Val} (h : Dumps W D sd (.inst c vals) t d sd') :
    ∃ kvs, d = .dict kvs ∧ ∀ k, k ∈ kvs.map (·.1) ↔ ∃ f ∈ (W.cls c).fields, ∃ x, (f.name, x) ∈ vals ∧ ShownBy D (W.cls c).kind f x ∧
      k = .str (extName C (W.cls c).kind f) := by
  obtain ⟨hk, kvs, rfl, h1, _, _⟩ := dumped_instance hdd hsd hv h
  refine ⟨kvs, rfl, fun k => (h1 k).trans ?_⟩
  constructor
  · rintro ⟨f, hf, x, hx, hs, rfl⟩
    exact ⟨f, hf, x, hx, hs, by rw [extName_class hk hm (fun h => he h f hf)]⟩
  · rintro ⟨f, hf, x, hx, hs, rfl⟩
    exact ⟨f, hf, x, hx, hs, by rw [extName_class hk hm (fun h => he h f hf)]⟩

/-! ## The hypotheses are met -/

/-- `P(x=1, z='q', y=5)` is written with the key "zed", and comes back. -/
example : ∃ d sd' r s', Legal Sample.W Sample.p0 ∧ Dumps Sample.W Sample.D {} Sample.p0 .any d sd' ∧ Loads Sample.W Sample.C (fresh []) d (.obj 0) r s' ∧
    d = .dict [(.str "x", .int 1), (.str "zed", .str "q")] ∧ r = Sample.p0 ∧
    ((Sample.W.cls 0).fields.map (dumpKey Sample.D)).Nodup ∧ ∀ f ∈ (Sample.W.cls 0).fields, aget f.metadata Sample.D.mangleKey ≠ some "" :=
  ⟨_, _, _, _, Sample.p0_legal, ⟨5, rfl⟩, ⟨5, rfl⟩, rfl, rfl, by decide, by decide⟩

/-- **C44** fails for a dataclass with the empty external name: dump writes "", load expects the Python name. -/
theorem C44_empty_counterexample : ∃ (W : World) (d : Val) (sd : DState) (e : Exc) (s : LState), Legal W (.inst 0 [("x", .int 1)]) ∧
    ((W.cls 0).fields.map (dumpKey {})).Nodup ∧ Dumps W {} {} (.inst 0 [("x", .int 1)]) .any d sd ∧ d = .dict [(.str "", .int 1)] ∧
    Raises W {} (fresh []) d (.obj 0) e s := by
  refine ⟨{ Sample.W with cls := fun _ => { kind := .dataclass, name := "K", fields := [{ name := "x", ty := .prim .int, metadata := [("name", "")] }] } },
    _, _, _, _, ?_, by decide, ⟨5, rfl⟩, rfl, ⟨5, rfl⟩⟩
  refine .of_parts ⟨Or.inl rfl, rfl, by simp⟩ (fun x hx => ?_)
  cases hx with
  | attr h =>
    simp only [List.mem_cons, Prod.mk.injEq, List.not_mem_nil, or_false] at h
    obtain ⟨_, rfl⟩ := h
    exact DumpPrim.legal_basic (p := .int) rfl

end TL
