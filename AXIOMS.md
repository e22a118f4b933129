# Axioms each theorem depends on

Generated by tools/axioms.py from `#print axioms`.

## propext, Quot.sound

`TL.C01_index_first_match`, `TL.C02_raise`, `TL.C02_silent`, `TL.C11_basic_last`, `TL.C38_untruthful_counterexample`, `TL.C46_optional_union`, `TL.C46_generics`, `TL.C46_forms`, `TL.C46_classes`, `TL.C46_literalvalues`, `TL.C46_literalvalues_only`, `TL.C46_discriminatorliterals`, `TL.C53_index_first_match`, `TL.C53_custom`, `TL.C53_returns`, `TL.C53_history`, `TL.C53_raise`, `TL.C53_value_condition_counterexample`, `TL.C58_dumper`, `TL.C65_alone`, `TL.C65_usable`, `TL.C68_alias_counterexample`, `TL.C71_list`, `TL.C71_list_raises`, `TL.C71_dict`, `TL.C71_namedtuple`, `TL.C71_enum`, `TL.C79_clash_counterexample`, `TL.C84_same_choice`, `TL.C84_inserted_partial`, `TL.C84_fresh_partial`, `TL.C84_front_counterexample`, `TL.C84_stock_state`, `TL.C84_stock`

## propext, Classical.choice, Quot.sound

`TL.C01_load_uses_index`, `TL.C01_custom_handler`, `TL.C01_custom_returns`, `TL.C01_custom_delegates`, `TL.C01_no_handler`, `TL.C01_insert`, `TL.C03_user_partial`, `TL.C03_sound_partial`, `TL.C03_sound_no_dict`, `TL.C03_mixup_counterexample`, `TL.C03_subclass_counterexample`, `TL.C04_escape`, `TL.C04_condition`, `TL.C05_user_partial`, `TL.C05_typed_errors_partial`, `TL.C05_sturdy`, `TL.C05_counterexample`, `TL.C05_suits`, `TL.C05_sturdy_keys`, `TL.C05_json`, `TL.C05_sturdy_user`, `TL.C05_json_user`, `TL.C06_history_partial`, `TL.C06_fresh_partial`, `TL.C06_bool_counterexample`, `TL.C06_fref_counterexample`, `TL.C06_spelling_counterexample`, `TL.C06_user_partial`, `TL.C06_user_fresh_partial`, `TL.C06_user_counterexample`, `TL.C07_handler_cache`, `TL.C07_class_cache`, `TL.C07_union_cache`, `TL.C07_stable`, `TL.C08_known_error`, `TL.C08_never_rebound`, `TL.C08_registered_by_name`, `TL.C08_disabled`, `TL.C08_unknown`, `TL.C08_known`, `TL.C09_union_sound`, `TL.C10_suits`, `TL.C10_accepts_iff`, `TL.C10_sturdy`, `TL.C10_union_complete_partial`, `TL.C10_tuple_counterexample`, `TL.C10_tag_counterexample`, `TL.C11_designated_first`, `TL.C11_exact_basic`, `TL.C11_first_accepting`, `TL.C11_unique`, `TL.C12_reports_all`, `TL.C13_unambiguous`, `TL.C13_ambiguity`, `TL.C14_optional`, `TL.C15_elements_partial`, `TL.C15_elements`, `TL.C15_basic`, `TL.C15_dict_refused`, `TL.C15_error_index`, `TL.C15_complete`, `TL.C15_distinct`, `TL.C15_truncation_counterexample`, `TL.C15_members`, `TL.C15_any`, `TL.C15_hashable`, `TL.C15_instances`, `TL.C15_union_instances`, `TL.C16_tuple`, `TL.C16_length`, `TL.C16_tail_ignored`, `TL.C16_error_index`, `TL.C16_no_len_counterexample`, `TL.C17_accepts`, `TL.C17_pairs_partial`, `TL.C17_pairs_warm_partial`, `TL.C17_complete`, `TL.C17_error`, `TL.C17_mixup_counterexample`, `TL.C17_units_counterexample`, `TL.C17_unhashable_counterexample`, `TL.C17_last_wins_legal`, `TL.C17_last_assigned`, `TL.C17_last_wins`, `TL.C17_hashable`, `TL.C18_missing_refused`, `TL.C18_missing_error`, `TL.C19_same_result`, `TL.C19_same_error`, `TL.C20_extra_refused`, `TL.C20_extra_error`, `TL.C20_non_string_counterexample`, `TL.C21_accepts`, `TL.C21_complete`, `TL.C21_fields`, `TL.C22_renaming`, `TL.C22_python_name_ignored`, `TL.C23_basic`, `TL.C23_never_converts`, `TL.C23_user`, `TL.C23_basiccast_counterexample`, `TL.C24_partial`, `TL.C24_fresh_partial`, `TL.C24_union_counterexample`, `TL.C24_dict_counterexample`, `TL.C24_refused_counterexample`, `TL.C24_nochoice_partial`, `TL.C24_optional_partial`, `TL.C24_user_partial`, `TL.C24_optional_user_partial`, `TL.C25_partial`, `TL.C25_fresh_partial`, `TL.C25_union_counterexample`, `TL.C25_refused_counterexample`, `TL.C25_nochoice_partial`, `TL.C25_optional_partial`, `TL.C25_user_partial`, `TL.C25_optional_user_partial`, `TL.C26_equal`, `TL.C26_values`, `TL.C26_literal`, `TL.C26_literal_fails`, `TL.C27_dump_load`, `TL.C27_equal`, `TL.C27_enum_sound`, `TL.C27_enum_fails`, `TL.C27_enum_first`, `TL.C27_enum_missing`, `TL.C28_any`, `TL.C28_none`, `TL.C28_newtype`, `TL.C29_namespace_partial`, `TL.C29_namespace_error_partial`, `TL.C29_renamed_counterexample`, `TL.C29_disabled`, `TL.C30_accepts`, `TL.C30_not_required`, `TL.C30_rewriting`, `TL.C30_keys`, `TL.C31_user`, `TL.C31_trace`, `TL.C31_forthright_counterexample`, `TL.C32_render_partial`, `TL.C32_render_iff`, `TL.C32_path`, `TL.C32_nested`, `TL.C32_enum_counterexample`, `TL.C32_path_user`, `TL.C33_out_of_range`, `TL.C33_wrong_shape`, `TL.C33_list_round_trip`, `TL.C33_iso_round_trip`, `TL.C33_timezone`, `TL.C33_date`, `TL.C33_time`, `TL.C33_datetime`, `TL.C33_refuses`, `TL.C33_overflow_counterexample`, `TL.C34_round_trip`, `TL.C34_int`, `TL.C34_other`, `TL.C34_overflow_counterexample`, `TL.C35_round_trip`, `TL.C35_pattern_partial`, `TL.C35_fails`, `TL.C35_parameter_counterexample`, `TL.C36_round_trip`, `TL.C36_loads`, `TL.C36_raises`, `TL.C36_not_listed`, `TL.C37_converter`, `TL.C37_untyped`, `TL.C38_plain`, `TL.C38_plain_handlers`, `TL.C39_dataclass`, `TL.C39_attrs`, `TL.C39_namedtuple`, `TL.C39_dataclass_equal`, `TL.C39_attrs_equal`, `TL.C39_namedtuple_equal`, `TL.C39_default_hidden`, `TL.C40_identity`, `TL.C40_twice`, `TL.C40_identity_handlers`, `TL.C41_history`, `TL.C41_first`, `TL.C41_unsupported`, `TL.C41_table`, `TL.C41_history_handlers`, `TL.C42_round_trip`, `TL.C42_values_partial`, `TL.C42_timedelta_counterexample`, `TL.C42_round_trip_user`, `TL.C42_round_trip_handlers`, `TL.C42_values_user_partial`, `TL.C43_round_trip`, `TL.C43_values_partial`, `TL.C43_discriminator_counterexample`, `TL.C43_round_trip_user`, `TL.C43_round_trip_handlers`, `TL.C43_values_user_partial`, `TL.C44_back`, `TL.C44_keys`, `TL.C44_empty_counterexample`, `TL.C45_circular_user`, `TL.C45_terminates`, `TL.C45_classes`, `TL.C45_json`, `TL.C45_circular`, `TL.C45_union_counterexample`, `TL.C45_char_counterexample`, `TL.C46_disjoint`, `TL.C46_reorder`, `TL.C46_table`, `TL.C46_is_optional`, `TL.C47_module_level_partial`, `TL.C47_hidden_literal_counterexample`, `TL.C48_json`, `TL.C48_json_user`, `TL.C49_idempotent_partial`, `TL.C49_again`, `TL.C49_union_counterexample`, `TL.C49_object_counterexample`, `TL.C49_idempotent_user_partial`, `TL.C50_designated`, `TL.C50_inherited_counterexample`, `TL.C50_accepts_iff`, `TL.C51_ends`, `TL.C51_dumps`, `TL.C51_ends_handlers`, `TL.C51_dumps_handlers`, `TL.C52_explained`, `TL.C52_explained_handlers`, `TL.C53_insert`, `TL.C54_elements_sound`, `TL.C54_elements_complete`, `TL.C54_elements`, `TL.C54_basic_counterexample`, `TL.C55_tag_decides_user`, `TL.C55_unknown_tag_user`, `TL.C55_never_ambiguous_user`, `TL.C55_tag_decides`, `TL.C55_unknown_tag`, `TL.C55_never_ambiguous`, `TL.C55_accepted`, `TL.C56_knows_all_user`, `TL.C56_unambiguous_user`, `TL.C56_knows_all`, `TL.C56_unambiguous`, `TL.C57_evolution`, `TL.C57_optional_counterexample`, `TL.C57_key_counterexample`, `TL.C57_union_counterexample`, `TL.C57_kind_counterexample`, `TL.C57_evolution_user`, `TL.C58_loader`, `TL.C58_mangle_key_counterexample`, `TL.C58_basictypes_counterexample`, `TL.C58_handlers_counterexample`, `TL.C58_user`, `TL.C59_alone_partial`, `TL.C59_plain_partial`, `TL.C59_all_finish_partial`, `TL.C59_unregistered_counterexample`, `TL.C59_rebound_counterexample`, `TL.C59_user_partial`, `TL.C59_user_plain_partial`, `TL.C60_user_sound_partial`, `TL.C60_sound_partial`, `TL.C60_typed_errors_partial`, `TL.C60_trace`, `TL.C60_never_converts`, `TL.C60_render_partial`, `TL.C60_trace_user`, `TL.C61_key_order_partial`, `TL.C61_strict`, `TL.C61_json`, `TL.C61_str_counterexample`, `TL.C61_keys_counterexample`, `TL.C61_crash_counterexample`, `TL.C61_strict_user`, `TL.C61_json_user`, `TL.C62_no_wrong_value_partial`, `TL.C62_optional`, `TL.C62_counterexample`, `TL.C62_enum_counterexample`, `TL.C62_no_wrong_value_user_partial`, `TL.C62_optional_user`, `TL.C63_abandoned`, `TL.C63_user`, `TL.C64_loads`, `TL.C64_raises`, `TL.C64_ends`, `TL.C65_all_finish`, `TL.C66_leaves_out`, `TL.C66_collision_counterexample`, `TL.C66_leaves_out_handlers`, `TL.C67_only_dates`, `TL.C67_only_dates_handlers`, `TL.C68_same`, `TL.C68_new`, `TL.C68_separate`, `TL.C69_same`, `TL.C69_same_raises`, `TL.C69_origin`, `TL.C69_new`, `TL.C69_separate`, `TL.C69_any`, `TL.C69_any_counterexample`, `TL.C69_default_counterexample`, `TL.C70_untouched`, `TL.C70_untouched_raises`, `TL.C70_data`, `TL.C71_dataclass`, `TL.C71_attrs`, `TL.C71_shortcut_counterexample`, `TL.C72_elements`, `TL.C72_raises`, `TL.C72_raises_only`, `TL.C72_failing`, `TL.C72_failing_raises`, `TL.C72_taken`, `TL.C72_union_partial`, `TL.C72_union_counterexample`, `TL.C72_tuple_counterexample`, `TL.C72_optional`, `TL.C73_user_partial`, `TL.C73_user_threads_partial`, `TL.C73_conversion_partial`, `TL.C73_threads_partial`, `TL.C73_mixup_counterexample`, `TL.C74_refused_user_partial`, `TL.C74_accepts_iff_user_partial`, `TL.C74_exact_user_partial`, `TL.C74_history_user_partial`, `TL.C74_refused_partial`, `TL.C74_accepts_iff_partial`, `TL.C74_exact_partial`, `TL.C74_tuple_counterexample`, `TL.C74_hash_counterexample`, `TL.C74_namespace_counterexample`, `TL.C75_exact`, `TL.C75_refused`, `TL.C75_unique`, `TL.C75_threads`, `TL.C75_exact_handlers`, `TL.C75_refused_handlers`, `TL.C76_members`, `TL.C76_dump_members`, `TL.C76_dump`, `TL.C76_dump_handlers`, `TL.C76_load_dump_handlers`, `TL.C76_wellformed`, `TL.C76_threads`, `TL.C76_load_dump`, `TL.C77_dumpable_user_partial`, `TL.C77_dumpable_partial`, `TL.C77_plain_user_partial`, `TL.C77_plain_partial`, `TL.C77_tuple_key_counterexample`, `TL.C77_date_key_counterexample`, `TL.C78_accepted_user_partial`, `TL.C78_restored_user_partial`, `TL.C78_accepted_partial`, `TL.C78_restored_partial`, `TL.C78_union_counterexample`, `TL.C78_hidden_counterexample`, `TL.C79_dump`, `TL.C79_dumpable`, `TL.C80_accepts_user_partial`, `TL.C80_load_user_partial`, `TL.C80_accepts_partial`, `TL.C80_load_partial`, `TL.C80_seed_counterexample`, `TL.C80_error_counterexample`, `TL.C81_accepts_partial`, `TL.C81_result_partial`, `TL.C81_order_counterexample`, `TL.C81_crash_counterexample`, `TL.C82_accepts_user_partial`, `TL.C82_result_user_partial`, `TL.C82_accepts_partial`, `TL.C82_result_partial`, `TL.C82_basic_counterexample`, `TL.C82_ambiguous_counterexample`, `TL.C82_crash_counterexample`, `TL.C83_same_choice`, `TL.C83_inserted`, `TL.C83_removed`, `TL.C83_fresh`, `TL.C83_stock_state`, `TL.C83_stock`, `TL.C83_same_choice_faults`, `TL.C83_stock_faults`, `TL.C85_same_view`, `TL.C85_strconstructed`, `TL.C85_basictypes`, `TL.C85_mangle_key`

## propext

`TL.C22_no_renaming`, `TL.C46_uniontypes`, `TL.C59_no_deadlock`, `TL.C65_no_deadlock`

## (none)

`TL.C59_terminates`, `TL.C65_terminates`
