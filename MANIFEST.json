{
 "claims": [
  {
   "property": "C01",
   "status": "proved",
   "theorems": [
    "TL.C01_index_first_match",
    "TL.C01_load_uses_index",
    "TL.C01_custom_handler",
    "TL.C01_custom_returns",
    "TL.C01_custom_delegates",
    "TL.C01_no_handler",
    "TL.C01_insert"
   ],
   "note": ""
  },
  {
   "property": "C02",
   "status": "proved",
   "theorems": [
    "TL.C02_raise",
    "TL.C02_silent"
   ],
   "note": ""
  },
  {
   "property": "C03",
   "status": "partial",
   "theorems": [
    "TL.C03_user_partial",
    "TL.C03_sound_partial",
    "TL.C03_sound_no_dict",
    "TL.C03_mixup_counterexample",
    "TL.C03_subclass_counterexample"
   ],
   "note": "Full statement is FALSE of the code: C03_mixup_counterexample (finding 1: Dict[K,V] uses the handler of V for keys whose handler was looked up first). Proved for all types whose Dict parts satisfy DictSafe (C03_sound_partial) and unconditionally for types without Dict (C03_sound_no_dict). Missing: Dict types with a basic V and a non-basic or different basic K on a cold cache, where it is false."
  },
  {
   "property": "C04",
   "status": "proved",
   "theorems": [
    "TL.C04_escape",
    "TL.C04_condition"
   ],
   "note": ""
  },
  {
   "property": "C05",
   "status": "partial",
   "theorems": [
    "TL.C05_user_partial",
    "TL.C05_typed_errors_partial",
    "TL.C05_sturdy",
    "TL.C05_counterexample",
    "TL.C05_suits",
    "TL.C05_sturdy_keys",
    "TL.C05_json",
    "TL.C05_sturdy_user",
    "TL.C05_json_user"
   ],
   "note": "Full statement is FALSE: C05_counterexample. C05_typed_errors_partial: an error is a TypedloadException or the value contains one of an enumerated list of culprits (findings 2-5, 7, 9); C05_sturdy: with no culprit-prone type, always; C05_suits: for data and type that suit each other part by part (a fixed tuple is fine where no list-like value is given, and so on); C05_json: json data (any failonextra). Nothing else is missing: the list is exact in the sense that each kind has a witness."
  },
  {
   "property": "C06",
   "status": "partial",
   "theorems": [
    "TL.C06_history_partial",
    "TL.C06_fresh_partial",
    "TL.C06_bool_counterexample",
    "TL.C06_fref_counterexample",
    "TL.C06_spelling_counterexample",
    "TL.C06_user_partial",
    "TL.C06_user_fresh_partial",
    "TL.C06_user_counterexample"
   ],
   "note": "Full statement is FALSE: C06_bool_counterexample, C06_fref_counterexample, C06_spelling_counterexample. Proved: any two reachable states that resolve the forward references the type uses to the same types, for steady values (no Dict[..int..] meeting a bool), give the same result, error and divergence. Programs write each tagged union in one order only (SteadyTags). C06_user_partial: for any handler list, user handlers included, if keys and values of dictionaries have the default handlers (needed: C06_user_counterexample). Missing: exactly the false cases."
  },
  {
   "property": "C07",
   "status": "proved",
   "theorems": [
    "TL.C07_handler_cache",
    "TL.C07_class_cache",
    "TL.C07_union_cache",
    "TL.C07_stable"
   ],
   "note": ""
  },
  {
   "property": "C08",
   "status": "proved",
   "theorems": [
    "TL.C08_known_error",
    "TL.C08_never_rebound",
    "TL.C08_registered_by_name",
    "TL.C08_disabled",
    "TL.C08_unknown",
    "TL.C08_known"
   ],
   "note": ""
  },
  {
   "property": "C09",
   "status": "proved",
   "theorems": [
    "TL.C09_union_sound"
   ],
   "note": ""
  },
  {
   "property": "C10",
   "status": "partial",
   "theorems": [
    "TL.C10_suits",
    "TL.C10_accepts_iff",
    "TL.C10_sturdy",
    "TL.C10_union_complete_partial",
    "TL.C10_tuple_counterexample",
    "TL.C10_tag_counterexample"
   ],
   "note": "Full statement is FALSE: C10_tuple_counterexample, C10_tag_counterexample. C10_accepts_iff/C10_sturdy: equivalence under \"members raise only TypedloadExceptions, discriminator value hashable\"; C10_sturdy discharges that for the types of C05_sturdy, C10_suits for data and types that suit each other."
  },
  {
   "property": "C11",
   "status": "proved",
   "theorems": [
    "TL.C11_designated_first",
    "TL.C11_exact_basic",
    "TL.C11_first_accepting",
    "TL.C11_basic_last",
    "TL.C11_unique"
   ],
   "note": ""
  },
  {
   "property": "C12",
   "status": "proved",
   "theorems": [
    "TL.C12_reports_all"
   ],
   "note": ""
  },
  {
   "property": "C13",
   "status": "proved",
   "theorems": [
    "TL.C13_unambiguous",
    "TL.C13_ambiguity"
   ],
   "note": ""
  },
  {
   "property": "C14",
   "status": "proved",
   "theorems": [
    "TL.C14_optional"
   ],
   "note": ""
  },
  {
   "property": "C15",
   "status": "partial",
   "theorems": [
    "TL.C15_elements_partial",
    "TL.C15_elements",
    "TL.C15_basic",
    "TL.C15_dict_refused",
    "TL.C15_error_index",
    "TL.C15_complete",
    "TL.C15_distinct",
    "TL.C15_truncation_counterexample",
    "TL.C15_members",
    "TL.C15_any",
    "TL.C15_hashable",
    "TL.C15_instances",
    "TL.C15_union_instances"
   ],
   "note": "Full statement is FALSE (length): C15_truncation_counterexample (StopIteration raised by a handler inside list(map()) truncates). C15_elements proves it for element types that cannot raise StopIteration; C15_basic proves it without condition for elements of a basic type or a union of basic types; C15_elements_partial gives the general shape (a prefix)."
  },
  {
   "property": "C16",
   "status": "proved",
   "theorems": [
    "TL.C16_tuple",
    "TL.C16_length",
    "TL.C16_tail_ignored",
    "TL.C16_error_index",
    "TL.C16_no_len_counterexample"
   ],
   "note": ""
  },
  {
   "property": "C17",
   "status": "partial",
   "theorems": [
    "TL.C17_accepts",
    "TL.C17_pairs_partial",
    "TL.C17_pairs_warm_partial",
    "TL.C17_complete",
    "TL.C17_error",
    "TL.C17_mixup_counterexample",
    "TL.C17_units_counterexample",
    "TL.C17_unhashable_counterexample",
    "TL.C17_last_wins_legal",
    "TL.C17_last_assigned",
    "TL.C17_last_wins",
    "TL.C17_hashable"
   ],
   "note": "Full statement is FALSE for keys on a cold cache: C17_mixup_counterexample. C17_pairs_partial for DictSafe key/value types, C17_pairs_warm_partial for every type once the value type has been loaded."
  },
  {
   "property": "C18",
   "status": "proved",
   "theorems": [
    "TL.C18_missing_refused",
    "TL.C18_missing_error"
   ],
   "note": ""
  },
  {
   "property": "C19",
   "status": "proved",
   "theorems": [
    "TL.C19_same_result",
    "TL.C19_same_error"
   ],
   "note": "C19_same_result for values, C19_same_error for errors up to the value carried by the error."
  },
  {
   "property": "C20",
   "status": "proved",
   "theorems": [
    "TL.C20_extra_refused",
    "TL.C20_extra_error",
    "TL.C20_non_string_counterexample"
   ],
   "note": "The TypeError with a non-string extra key is finding 3 (C20_non_string_counterexample)."
  },
  {
   "property": "C21",
   "status": "proved",
   "theorems": [
    "TL.C21_accepts",
    "TL.C21_complete",
    "TL.C21_fields"
   ],
   "note": ""
  },
  {
   "property": "C22",
   "status": "proved",
   "theorems": [
    "TL.C22_renaming",
    "TL.C22_python_name_ignored",
    "TL.C22_no_renaming"
   ],
   "note": ""
  },
  {
   "property": "C23",
   "status": "proved",
   "theorems": [
    "TL.C23_basic",
    "TL.C23_never_converts",
    "TL.C23_user",
    "TL.C23_basiccast_counterexample"
   ],
   "note": ""
  },
  {
   "property": "C24",
   "status": "partial",
   "theorems": [
    "TL.C24_partial",
    "TL.C24_fresh_partial",
    "TL.C24_union_counterexample",
    "TL.C24_dict_counterexample",
    "TL.C24_refused_counterexample",
    "TL.C24_nochoice_partial",
    "TL.C24_optional_partial",
    "TL.C24_user_partial",
    "TL.C24_optional_user_partial"
   ],
   "note": "False for Dict (C24_dict_counterexample, through finding 1); proved for steady values from any two reachable states, for types without unions (C24_partial), whose unions are all Optional (C24_optional_partial), or whose unions leave the permissive loader no choice (C24_nochoice_partial). With unions the results may differ (C24_union_counterexample) or permissive loading may even refuse (C24_refused_counterexample)."
  },
  {
   "property": "C25",
   "status": "partial",
   "theorems": [
    "TL.C25_partial",
    "TL.C25_fresh_partial",
    "TL.C25_union_counterexample",
    "TL.C25_refused_counterexample",
    "TL.C25_nochoice_partial",
    "TL.C25_optional_partial",
    "TL.C25_user_partial",
    "TL.C25_optional_user_partial"
   ],
   "note": "Proved for types without unions (C25_partial), whose unions are all Optional (C25_optional_partial), or whose unions leave the permissive loader no choice (C25_nochoice_partial), and steady values (Dict[..int..] with bools excluded because of finding 1, where even repeated identical loads differ). With unions the results may differ (C25_union_counterexample) or permissive loading may even refuse (C25_refused_counterexample)."
  },
  {
   "property": "C26",
   "status": "proved",
   "theorems": [
    "TL.C26_equal",
    "TL.C26_values",
    "TL.C26_literal",
    "TL.C26_literal_fails"
   ],
   "note": ""
  },
  {
   "property": "C27",
   "status": "proved",
   "theorems": [
    "TL.C27_dump_load",
    "TL.C27_equal",
    "TL.C27_enum_sound",
    "TL.C27_enum_fails",
    "TL.C27_enum_first",
    "TL.C27_enum_missing"
   ],
   "note": ""
  },
  {
   "property": "C28",
   "status": "proved",
   "theorems": [
    "TL.C28_any",
    "TL.C28_none",
    "TL.C28_newtype"
   ],
   "note": ""
  },
  {
   "property": "C29",
   "status": "partial",
   "theorems": [
    "TL.C29_namespace_partial",
    "TL.C29_namespace_error_partial",
    "TL.C29_renamed_counterexample",
    "TL.C29_disabled"
   ],
   "note": "False when names are mangled: C29_renamed_counterexample. Proved for Dict and for object types without renamed fields, results and errors."
  },
  {
   "property": "C30",
   "status": "proved",
   "theorems": [
    "TL.C30_accepts",
    "TL.C30_not_required",
    "TL.C30_rewriting",
    "TL.C30_keys"
   ],
   "note": ""
  },
  {
   "property": "C31",
   "status": "proved",
   "theorems": [
    "TL.C31_user",
    "TL.C31_trace",
    "TL.C31_forthright_counterexample"
   ],
   "note": ""
  },
  {
   "property": "C32",
   "status": "partial",
   "theorems": [
    "TL.C32_render_partial",
    "TL.C32_render_iff",
    "TL.C32_path",
    "TL.C32_nested",
    "TL.C32_enum_counterexample",
    "TL.C32_path_user"
   ],
   "note": "False for enums with hints: C32_enum_counterexample (finding 10). C32_render_iff characterises exactly when rendering works. For a union nested in a union the printed path starts at the inner union, not at the root; C32_nested says exactly what is printed there."
  },
  {
   "property": "C33",
   "status": "proved",
   "theorems": [
    "TL.C33_out_of_range",
    "TL.C33_wrong_shape",
    "TL.C33_list_round_trip",
    "TL.C33_iso_round_trip",
    "TL.C33_timezone",
    "TL.C33_date",
    "TL.C33_time",
    "TL.C33_datetime",
    "TL.C33_refuses",
    "TL.C33_overflow_counterexample"
   ],
   "note": "OverflowError is finding 5."
  },
  {
   "property": "C34",
   "status": "proved",
   "theorems": [
    "TL.C34_round_trip",
    "TL.C34_int",
    "TL.C34_other",
    "TL.C34_overflow_counterexample"
   ],
   "note": ""
  },
  {
   "property": "C35",
   "status": "partial",
   "theorems": [
    "TL.C35_round_trip",
    "TL.C35_pattern_partial",
    "TL.C35_fails",
    "TL.C35_parameter_counterexample"
   ],
   "note": "The clause \"Pattern[bytes] accepts only bytes\" is FALSE: C35_parameter_counterexample (finding 6). Everything else is an equivalence."
  },
  {
   "property": "C36",
   "status": "proved",
   "theorems": [
    "TL.C36_round_trip",
    "TL.C36_loads",
    "TL.C36_raises",
    "TL.C36_not_listed"
   ],
   "note": "Constructor and str() are world parameters; round trip assumes str() round-trips for that class."
  },
  {
   "property": "C37",
   "status": "proved",
   "theorems": [
    "TL.C37_converter",
    "TL.C37_untyped"
   ],
   "note": ""
  },
  {
   "property": "C38",
   "status": "proved",
   "theorems": [
    "TL.C38_plain",
    "TL.C38_untruthful_counterexample",
    "TL.C38_plain_handlers"
   ],
   "note": "The proviso is necessary: C38_untruthful_counterexample."
  },
  {
   "property": "C39",
   "status": "proved",
   "theorems": [
    "TL.C39_dataclass",
    "TL.C39_attrs",
    "TL.C39_namedtuple",
    "TL.C39_dataclass_equal",
    "TL.C39_attrs_equal",
    "TL.C39_namedtuple_equal",
    "TL.C39_default_hidden"
   ],
   "note": ""
  },
  {
   "property": "C40",
   "status": "proved",
   "theorems": [
    "TL.C40_identity",
    "TL.C40_twice",
    "TL.C40_identity_handlers"
   ],
   "note": ""
  },
  {
   "property": "C41",
   "status": "proved",
   "theorems": [
    "TL.C41_history",
    "TL.C41_first",
    "TL.C41_unsupported",
    "TL.C41_table",
    "TL.C41_history_handlers"
   ],
   "note": ""
  },
  {
   "property": "C42",
   "status": "partial",
   "theorems": [
    "TL.C42_round_trip",
    "TL.C42_values_partial",
    "TL.C42_timedelta_counterexample",
    "TL.C42_round_trip_user",
    "TL.C42_round_trip_handlers",
    "TL.C42_values_user_partial"
   ],
   "note": "Full statement is FALSE for Dict[timedelta,int] (C42_timedelta_counterexample) and for unions whose members overlap. C42_values_partial: every value of the judgement Fits, any history, provided no bool meets a Dict[..int..]."
  },
  {
   "property": "C43",
   "status": "partial",
   "theorems": [
    "TL.C43_round_trip",
    "TL.C43_values_partial",
    "TL.C43_discriminator_counterexample",
    "TL.C43_round_trip_user",
    "TL.C43_round_trip_handlers",
    "TL.C43_values_user_partial"
   ],
   "note": "Full statement is FALSE when the discriminator field has a default: C43_discriminator_counterexample. C43_values_partial as C42, up to Python equality."
  },
  {
   "property": "C44",
   "status": "proved",
   "theorems": [
    "TL.C44_back",
    "TL.C44_keys",
    "TL.C44_empty_counterexample"
   ],
   "note": "The proviso on empty names is necessary: C44_empty_counterexample."
  },
  {
   "property": "C45",
   "status": "proved",
   "theorems": [
    "TL.C45_circular_user",
    "TL.C45_terminates",
    "TL.C45_classes",
    "TL.C45_json",
    "TL.C45_circular",
    "TL.C45_union_counterexample",
    "TL.C45_char_counterexample"
   ],
   "note": "Provisos necessary: C45_circular, C45_union_counterexample, C45_char_counterexample."
  },
  {
   "property": "C46",
   "status": "proved",
   "theorems": [
    "TL.C46_optional_union",
    "TL.C46_disjoint",
    "TL.C46_reorder",
    "TL.C46_table",
    "TL.C46_generics",
    "TL.C46_forms",
    "TL.C46_classes",
    "TL.C46_is_optional",
    "TL.C46_uniontypes",
    "TL.C46_literalvalues",
    "TL.C46_literalvalues_only",
    "TL.C46_discriminatorliterals"
   ],
   "note": ""
  },
  {
   "property": "C47",
   "status": "partial",
   "theorems": [
    "TL.C47_module_level_partial",
    "TL.C47_hidden_literal_counterexample"
   ],
   "note": "FALSE for TypedDicts whose discriminator is NotRequired[Literal] (C47_hidden_literal_counterexample: the first load rewrites the class annotations); proved for all other worlds."
  },
  {
   "property": "C48",
   "status": "proved",
   "theorems": [
    "TL.C48_json",
    "TL.C48_json_user"
   ],
   "note": ""
  },
  {
   "property": "C49",
   "status": "partial",
   "theorems": [
    "TL.C49_idempotent_partial",
    "TL.C49_again",
    "TL.C49_union_counterexample",
    "TL.C49_object_counterexample",
    "TL.C49_idempotent_user_partial"
   ],
   "note": "FALSE for unions with two iterable members (C49_union_counterexample) and for objects (C49_object_counterexample: the result is not a dict); proved for the types of PlainData. C49_again: the same, with the same loader, for types without forward references and Dict."
  },
  {
   "property": "C50",
   "status": "proved",
   "theorems": [
    "TL.C50_designated",
    "TL.C50_inherited_counterexample",
    "TL.C50_accepts_iff"
   ],
   "note": ""
  },
  {
   "property": "C51",
   "status": "proved",
   "theorems": [
    "TL.C51_ends",
    "TL.C51_dumps",
    "TL.C51_ends_handlers",
    "TL.C51_dumps_handlers"
   ],
   "note": ""
  },
  {
   "property": "C52",
   "status": "proved",
   "theorems": [
    "TL.C52_explained",
    "TL.C52_explained_handlers"
   ],
   "note": ""
  },
  {
   "property": "C53",
   "status": "proved",
   "theorems": [
    "TL.C53_index_first_match",
    "TL.C53_custom",
    "TL.C53_returns",
    "TL.C53_history",
    "TL.C53_raise",
    "TL.C53_insert",
    "TL.C53_value_condition_counterexample"
   ],
   "note": "The proviso on conditions is necessary: C53_value_condition_counterexample (finding 18)."
  },
  {
   "property": "C54",
   "status": "proved",
   "theorems": [
    "TL.C54_elements_sound",
    "TL.C54_elements_complete",
    "TL.C54_elements",
    "TL.C54_basic_counterexample"
   ],
   "note": ""
  },
  {
   "property": "C55",
   "status": "proved",
   "theorems": [
    "TL.C55_tag_decides_user",
    "TL.C55_unknown_tag_user",
    "TL.C55_never_ambiguous_user",
    "TL.C55_tag_decides",
    "TL.C55_unknown_tag",
    "TL.C55_never_ambiguous",
    "TL.C55_accepted"
   ],
   "note": ""
  },
  {
   "property": "C56",
   "status": "proved",
   "theorems": [
    "TL.C56_knows_all_user",
    "TL.C56_unambiguous_user",
    "TL.C56_knows_all",
    "TL.C56_unambiguous"
   ],
   "note": ""
  },
  {
   "property": "C57",
   "status": "proved",
   "theorems": [
    "TL.C57_evolution",
    "TL.C57_optional_counterexample",
    "TL.C57_key_counterexample",
    "TL.C57_union_counterexample",
    "TL.C57_kind_counterexample",
    "TL.C57_evolution_user"
   ],
   "note": ""
  },
  {
   "property": "C58",
   "status": "proved",
   "theorems": [
    "TL.C58_loader",
    "TL.C58_dumper",
    "TL.C58_mangle_key_counterexample",
    "TL.C58_basictypes_counterexample",
    "TL.C58_handlers_counterexample",
    "TL.C58_user"
   ],
   "note": ""
  },
  {
   "property": "C59",
   "status": "partial",
   "theorems": [
    "TL.C59_alone_partial",
    "TL.C59_plain_partial",
    "TL.C59_terminates",
    "TL.C59_no_deadlock",
    "TL.C59_all_finish_partial",
    "TL.C59_unregistered_counterexample",
    "TL.C59_rebound_counterexample",
    "TL.C59_user_partial",
    "TL.C59_user_plain_partial"
   ],
   "note": "Full statement is FALSE of the code: C59_unregistered_counterexample (finding 23), C59_rebound_counterexample (finding 24), and wherever C06 is. Proved for every interleaving, any number of threads and any history, under the conditions of C06 if the names of the forward references in use are registered before (or by nobody); unconditionally (but for NotRequiredLaw, SteadyTags, default handlers) for types without forward references and Dict. C59_user_partial: the same for any handler list, user handlers included, under the conditions of C06_user_partial. Termination and absence of deadlock are unconditional. The caches are right at every moment whatever the threads do: constructor shared of Reachable, so the theorems about reachable loaders hold of loaders in use by threads."
  },
  {
   "property": "C60",
   "status": "partial",
   "theorems": [
    "TL.C60_user_sound_partial",
    "TL.C60_sound_partial",
    "TL.C60_typed_errors_partial",
    "TL.C60_trace",
    "TL.C60_never_converts",
    "TL.C60_render_partial",
    "TL.C60_trace_user"
   ],
   "note": "As C03, C05 and C32 (same exceptions to the claims, same counterexamples), for every interleaving of any number of calls on a loader with any history, no condition on names; trace and basiccast=False claims are unrestricted."
  },
  {
   "property": "C61",
   "status": "partial",
   "theorems": [
    "TL.C61_key_order_partial",
    "TL.C61_strict",
    "TL.C61_json",
    "TL.C61_str_counterexample",
    "TL.C61_keys_counterexample",
    "TL.C61_crash_counterexample",
    "TL.C61_strict_user",
    "TL.C61_json_user"
   ],
   "note": "Full statement is FALSE of the code: C61_str_counterexample (str(dict) with basiccast), C61_keys_counterexample ({5: a, \"5\": b} into Dict[int, str]), C61_crash_counterexample (finding 26). C61_strict proves it for basiccast=False, sturdy types and dictionaries keyed by strings, with any failonextra; C61_json for all json data; C61_key_order_partial in general, under the absence of exactly these three."
  },
  {
   "property": "C62",
   "status": "partial",
   "theorems": [
    "TL.C62_no_wrong_value_partial",
    "TL.C62_optional",
    "TL.C62_counterexample",
    "TL.C62_enum_counterexample",
    "TL.C62_no_wrong_value_user_partial",
    "TL.C62_optional_user"
   ],
   "note": "Full statement is FALSE of the code: C62_counterexample (a union takes a RecursionError, wrapped by the handler of tuples, for a refusal: finding 27), C62_enum_counterexample (Enum with two annotations). C62_optional: true when all unions are Optional and Enums have at most one annotation; C62_no_wrong_value_partial: whenever the data leaves no choice (of any two members one refuses). Also asked for: the conditions of C06."
  },
  {
   "property": "C63",
   "status": "proved",
   "theorems": [
    "TL.C63_abandoned",
    "TL.C63_user"
   ],
   "note": ""
  },
  {
   "property": "C64",
   "status": "proved",
   "theorems": [
    "TL.C64_loads",
    "TL.C64_raises",
    "TL.C64_ends"
   ],
   "note": ""
  },
  {
   "property": "C65",
   "status": "proved",
   "theorems": [
    "TL.C65_alone",
    "TL.C65_terminates",
    "TL.C65_no_deadlock",
    "TL.C65_all_finish",
    "TL.C65_usable"
   ],
   "note": ""
  },
  {
   "property": "C66",
   "status": "proved",
   "theorems": [
    "TL.C66_leaves_out",
    "TL.C66_collision_counterexample",
    "TL.C66_leaves_out_handlers"
   ],
   "note": ""
  },
  {
   "property": "C67",
   "status": "proved",
   "theorems": [
    "TL.C67_only_dates",
    "TL.C67_only_dates_handlers"
   ],
   "note": ""
  },
  {
   "property": "C68",
   "status": "proved",
   "theorems": [
    "TL.C68_same",
    "TL.C68_new",
    "TL.C68_separate",
    "TL.C68_alias_counterexample"
   ],
   "note": ""
  },
  {
   "property": "C69",
   "status": "proved",
   "theorems": [
    "TL.C69_same",
    "TL.C69_same_raises",
    "TL.C69_origin",
    "TL.C69_new",
    "TL.C69_separate",
    "TL.C69_any",
    "TL.C69_any_counterexample",
    "TL.C69_default_counterexample"
   ],
   "note": ""
  },
  {
   "property": "C70",
   "status": "proved",
   "theorems": [
    "TL.C70_untouched",
    "TL.C70_untouched_raises",
    "TL.C70_data"
   ],
   "note": ""
  },
  {
   "property": "C71",
   "status": "proved",
   "theorems": [
    "TL.C71_list",
    "TL.C71_list_raises",
    "TL.C71_dict",
    "TL.C71_dataclass",
    "TL.C71_attrs",
    "TL.C71_namedtuple",
    "TL.C71_enum",
    "TL.C71_shortcut_counterexample"
   ],
   "note": ""
  },
  {
   "property": "C72",
   "status": "partial",
   "theorems": [
    "TL.C72_elements",
    "TL.C72_raises",
    "TL.C72_raises_only",
    "TL.C72_failing",
    "TL.C72_failing_raises",
    "TL.C72_taken",
    "TL.C72_union_partial",
    "TL.C72_union_counterexample",
    "TL.C72_tuple_counterexample",
    "TL.C72_optional"
   ],
   "note": "Proved in full for List, Set, FrozenSet, Tuple[T, ...] and Optional of these. FALSE for fixed-size tuples (C72_tuple_counterexample, finding 2) and for unions with several members that take elements (C72_union_counterexample, finding 33); C72_union_partial says what a union does."
  },
  {
   "property": "C73",
   "status": "partial",
   "theorems": [
    "TL.C73_user_partial",
    "TL.C73_user_threads_partial",
    "TL.C73_conversion_partial",
    "TL.C73_threads_partial",
    "TL.C73_mixup_counterexample"
   ],
   "note": "FALSE of the code for Dicts where the handler mix-up of _dictload matters (C73_mixup_counterexample, finding 1); constructors that raise StopIteration are excluded (C15_truncation_counterexample). Otherwise proved for all types at once (Spec/Conversion.lean), sequentially and for every interleaving."
  },
  {
   "property": "C74",
   "status": "partial",
   "theorems": [
    "TL.C74_refused_user_partial",
    "TL.C74_accepts_iff_user_partial",
    "TL.C74_exact_user_partial",
    "TL.C74_history_user_partial",
    "TL.C74_refused_partial",
    "TL.C74_accepts_iff_partial",
    "TL.C74_exact_partial",
    "TL.C74_tuple_counterexample",
    "TL.C74_hash_counterexample",
    "TL.C74_namespace_counterexample"
   ],
   "note": "FALSE of the code where a failing member aborts a union (C74_tuple_counterexample, finding 2), where the first member of a union makes an unhashable value for a set although another would not (C74_hash_counterexample), for Namespaces and renamed fields (C74_namespace_counterexample), and where C73 is. Proved, with exactly these situations excluded (Spec/Completeness.lean), for every history; examples instantiate it for all data at once."
  },
  {
   "property": "C75",
   "status": "proved",
   "theorems": [
    "TL.C75_exact",
    "TL.C75_refused",
    "TL.C75_unique",
    "TL.C75_threads",
    "TL.C75_exact_handlers",
    "TL.C75_refused_handlers"
   ],
   "note": ""
  },
  {
   "property": "C76",
   "status": "proved",
   "theorems": [
    "TL.C76_members",
    "TL.C76_dump_members",
    "TL.C76_dump",
    "TL.C76_dump_handlers",
    "TL.C76_load_dump_handlers",
    "TL.C76_wellformed",
    "TL.C76_threads",
    "TL.C76_load_dump"
   ],
   "note": ""
  },
  {
   "property": "C77",
   "status": "partial",
   "theorems": [
    "TL.C77_dumpable_user_partial",
    "TL.C77_dumpable_partial",
    "TL.C77_plain_user_partial",
    "TL.C77_plain_partial",
    "TL.C77_tuple_key_counterexample",
    "TL.C77_date_key_counterexample"
   ],
   "note": "As C73, on which it rests: the types met must not run into the handler mix-up of _dictload (finding 1), constructors must not raise StopIteration. The condition on keys is needed (C77_tuple_key_counterexample, C77_date_key_counterexample)."
  },
  {
   "property": "C78",
   "status": "partial",
   "theorems": [
    "TL.C78_accepted_user_partial",
    "TL.C78_restored_user_partial",
    "TL.C78_accepted_partial",
    "TL.C78_restored_partial",
    "TL.C78_union_counterexample",
    "TL.C78_hidden_counterexample"
   ],
   "note": "As C74, on which it rests, and the conditions of ReadsBack, which are needed (C78_union_counterexample: Union[float, timedelta]; C78_hidden_counterexample: hidedefault hides True where the default is 1)."
  },
  {
   "property": "C79",
   "status": "proved",
   "theorems": [
    "TL.C79_dump",
    "TL.C79_dumpable",
    "TL.C79_clash_counterexample"
   ],
   "note": ""
  },
  {
   "property": "C80",
   "status": "partial",
   "theorems": [
    "TL.C80_accepts_user_partial",
    "TL.C80_load_user_partial",
    "TL.C80_accepts_partial",
    "TL.C80_load_partial",
    "TL.C80_seed_counterexample",
    "TL.C80_error_counterexample"
   ],
   "note": "FALSE of the code: where the members of a union share two Literal fields, set.pop() chooses the discriminator, so that the member whose instance is returned (C80_seed_counterexample, finding 37) and the class of the exception (C80_error_counterexample) depend on PYTHONHASHSEED. Proved under the conditions of C74 (Consistent for acceptance, Unambiguous for the value), for all data, types and seeds."
  },
  {
   "property": "C81",
   "status": "partial",
   "theorems": [
    "TL.C81_accepts_partial",
    "TL.C81_result_partial",
    "TL.C81_order_counterexample",
    "TL.C81_crash_counterexample"
   ],
   "note": "FALSE of the code where two members take the data (C81_order_counterexample) and where a member crashes on the data (C81_crash_counterexample, finding 2). Proved under the conditions of C74 for every reordering at any depth, in types and class annotations; forward references must denote classes."
  },
  {
   "property": "C82",
   "status": "partial",
   "theorems": [
    "TL.C82_accepts_user_partial",
    "TL.C82_result_user_partial",
    "TL.C82_accepts_partial",
    "TL.C82_result_partial",
    "TL.C82_basic_counterexample",
    "TL.C82_ambiguous_counterexample",
    "TL.C82_crash_counterexample"
   ],
   "note": "FALSE of the code where a basic type is added (C82_basic_counterexample: it takes data that another member converted), where the added member takes the data first (C82_ambiguous_counterexample) and where the added member crashes on the data (C82_crash_counterexample, finding 2). Proved under the conditions of C74 for every widening at any depth, in types and class annotations."
  },
  {
   "property": "C83",
   "status": "proved",
   "theorems": [
    "TL.C83_same_choice",
    "TL.C83_inserted",
    "TL.C83_removed",
    "TL.C83_fresh",
    "TL.C83_stock_state",
    "TL.C83_stock",
    "TL.C83_same_choice_faults",
    "TL.C83_stock_faults"
   ],
   "note": ""
  },
  {
   "property": "C84",
   "status": "partial",
   "theorems": [
    "TL.C84_same_choice",
    "TL.C84_inserted_partial",
    "TL.C84_fresh_partial",
    "TL.C84_front_counterexample",
    "TL.C84_stock_state",
    "TL.C84_stock"
   ],
   "note": "FALSE of the code for a handler inserted at the very front: C84_front_counterexample (finding 39). Proved for every other place, and for the front when no annotation met announces elements of a basic type."
  },
  {
   "property": "C85",
   "status": "proved",
   "theorems": [
    "TL.C85_same_view",
    "TL.C85_strconstructed",
    "TL.C85_basictypes",
    "TL.C85_mangle_key"
   ],
   "note": ""
  }
 ]
}