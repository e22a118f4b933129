import Verif.Props.StockDump
import Verif.Props.Json
import Verif.Props.DumpTotal
/-!
# Json data and refused dumps, with handlers of the user for other types
-/

namespace TL

variable {W : World} {C : Config} {D : DConfig}

/-- **C48** With handlers of the user for other types: json is loaded as itself, and never refused. -/
theorem C48_json_user (h1 : W.NotRequiredLaw) (h2 : W.SteadyTags)
    (hb : ∀ p ∈ [Prim.int, .float, .str, .bool, .none], p ∈ C.basictypes) (hu : C.uniondebugconflict = false)
    {s : LState} (hs : UsualHistory W C s) {n : String} {fr : List (String × Ty)} (hfr : s.frefs = some fr) (hn : aget fr n = some (jsonTy n))
    {v : Val} (hj : Json v) {t : Ty} (ht : t = .fref n ∨ t = jsonTy n) (hus : ∀ u, Meets W C s t u → C.Usual W u) :
    (∃ s', Loads W C s v t v s') ∧ (∀ r s', Loads W C s v t r s' → r = v) ∧ ∀ e s', ¬ Raises W C s v t e s' := by
  obtain ⟨a1, a2, _⟩ := C83_stock hs hus v
  simp only [a1, a2]
  exact C48_json (C := C.stock) C.stock_default h1 h2 hb hu (C83_stock_state hs) hfr hn hj ht

/-- **C52** With handlers of the user for other values: a dump that is refused contains the reason. -/
theorem C52_explained_handlers (hw : W.GroundedEnums) {s s' : DState} (hs : UsualDumps W D s) {v : Val} (hv : Legal W v) {a : Ty}
    (hus : D.Usual W v a) {e : Exc} (h : DumpRaises W D s v a e s') : ∃ x, Inside W v x ∧
      ((e.cls = .tlValue ∧ e.value = x ∧ Undumpable D.stock x) ∨
       (e.cls = .notImplemented ∧ D.isodates = false ∧ ∃ z, tzOf x = some z) ∨
       (e.cls = .type ∧ ∃ kvs p d sd, x = .dict kvs ∧ p ∈ kvs ∧ Dumps W D.stock {} p.1 .any d sd ∧ W.hash d = false)) :=
  C52_explained (D := D.stock) rfl hw (C84_stock_state hs) hv (((C84_stock hs hus).2 e s').1 h)

/-! ## The hypotheses are met -/

theorem Sample.meets_json {s : LState} (hs : s.frefs = some [("Json", jsonTy "Json")]) {t u : Ty} (ht : t = .fref "Json" ∨ t = jsonTy "Json")
    (h : Meets Sample.WB Sample.CB s t u) :
    u ∈ [.fref "Json", jsonTy "Json", .prim .int, .prim .float, .prim .str, .prim .bool, .prim .none, .coll .list (.fref "Json"), .dict (.prim .str) (.fref "Json")] := by
  induction h with
  | self => rcases ht with rfl | rfl <;> simp
  | @known n u h =>
    obtain ⟨fr, h1, h2⟩ := h
    rw [hs] at h1; cases h1
    simp only [aget] at h2
    split at h2
    · cases h2; simp
    · simp at h2
  | @custom i x u y w hi _ ha ih =>
    have ha : (Sample.callback x u).Asks y w := ha
    simp only [jsonTy, List.mem_cons, List.not_mem_nil, or_false] at ih
    rcases ih with rfl | rfl | rfl | rfl | rfl | rfl | rfl | rfl | rfl <;> cases ha
  | _ => simp_all [jsonTy]

/-- Whatever json data, by a loader that has a handler of the user, and then the same loader. -/
example (v : Val) (hj : Json v) : ∃ s, UsualHistory Sample.WB Sample.CB s ∧
    Loads Sample.WB Sample.CB { frefs := some [("Json", jsonTy "Json")] } v (.fref "Json") v s := by
  have hus : ∀ u, Meets Sample.WB Sample.CB { frefs := some [("Json", jsonTy "Json")] } (.fref "Json") u → Sample.CB.Usual Sample.WB u := by
    intro u hu
    have := Sample.meets_json rfl (Or.inl rfl) hu
    simp only [List.mem_cons, List.not_mem_nil, or_false] at this
    rcases this with rfl | rfl | rfl | rfl | rfl | rfl | rfl | rfl | rfl <;> rfl
  obtain ⟨⟨s, h⟩, _⟩ := C48_json_user Sample.wb_notRequiredLaw Sample.wb_steadyTags (by decide) rfl (.new (some [("Json", jsonTy "Json")]) []) rfl rfl hj (Or.inl rfl) hus
  exact ⟨s, .loaded (.new _ []) hus h, h⟩

/-- A list with a time in a time zone is refused by a dumper that has a handler of the user. -/
example : ∃ e s', DumpRaises Sample.WBD Sample.DBD {} (.list [.int 3, .time 1 2 3 4 (some "UTC")]) .any e s' ∧ e.cls = .notImplemented ∧
    Sample.DBD.Usual Sample.WBD (.list [.int 3, .time 1 2 3 4 (some "UTC")]) .any := by
  have h : ∃ e s', DumpRaises Sample.WBD Sample.DBD {} (.list [.int 3, .time 1 2 3 4 (some "UTC")]) .any e s' ∧ e.cls = .notImplemented := ⟨_, _, ⟨5, rfl⟩, rfl⟩
  obtain ⟨e, s', h, he⟩ := h
  refine ⟨e, s', h, he, fun x u hm => ?_, Or.inl rfl⟩
  have : x = .list [.int 3, .time 1 2 3 4 (some "UTC")] ∨ x = .int 3 ∨ x = .time 1 2 3 4 (some "UTC") := by
    induction hm with
    | self => exact Or.inl rfl
    | item _ hx ih =>
      rcases ih with ih | ih | ih <;> cases ih
      simp at hx; exact Or.inr hx
    | custom _ _ ha _ => cases ha
    | _ => rename_i ih; rcases ih with ih | ih | ih <;> cases ih
  rcases this with rfl | rfl | rfl <;> rfl

end TL
