#!/usr/bin/env python3
"""Writes tools/status.json: the notes of MANIFEST.json (what a partial theorem lacks, what hypotheses mean)."""
import json
N = {}
def n(i, t): N[i] = {'note': t}
n('C03', 'Full statement is FALSE of the code: C03_mixup_counterexample (finding 1: Dict[K,V] uses the handler of V for keys whose handler was looked up first). Proved for all types whose Dict parts satisfy DictSafe (C03_sound_partial) and unconditionally for types without Dict (C03_sound_no_dict). Missing: Dict types with a basic V and a non-basic or different basic K on a cold cache, where it is false.')
n('C05', 'Full statement is FALSE: C05_counterexample. C05_typed_errors_partial: an error is a TypedloadException or the value contains one of an enumerated list of culprits (findings 2-5, 7, 9); C05_sturdy: with no culprit-prone type, always; C05_suits: for data and type that suit each other part by part (a fixed tuple is fine where no list-like value is given, and so on); C05_json: json data (any failonextra). Nothing else is missing: the list is exact in the sense that each kind has a witness.')
n('C06', 'Full statement is FALSE: C06_bool_counterexample, C06_fref_counterexample, C06_spelling_counterexample. Proved: any two reachable states that resolve the forward references the type uses to the same types, for steady values (no Dict[..int..] meeting a bool), give the same result, error and divergence. Programs write each tagged union in one order only (SteadyTags). C06_user_partial: for any handler list, user handlers included, if keys and values of dictionaries have the default handlers (needed: C06_user_counterexample). Missing: exactly the false cases.')
n('C10', 'Full statement is FALSE: C10_tuple_counterexample, C10_tag_counterexample. C10_accepts_iff/C10_sturdy: equivalence under "members raise only TypedloadExceptions, discriminator value hashable"; C10_sturdy discharges that for the types of C05_sturdy, C10_suits for data and types that suit each other.')
n('C15', 'Full statement is FALSE (length): C15_truncation_counterexample (StopIteration raised by a handler inside list(map()) truncates). C15_elements proves it for element types that cannot raise StopIteration; C15_basic proves it without condition for elements of a basic type or a union of basic types; C15_elements_partial gives the general shape (a prefix).')
n('C17', 'Full statement is FALSE for keys on a cold cache: C17_mixup_counterexample. C17_pairs_partial for DictSafe key/value types, C17_pairs_warm_partial for every type once the value type has been loaded.')
n('C24', 'False for Dict (C24_dict_counterexample, through finding 1); proved for steady values from any two reachable states, for types without unions (C24_partial), whose unions are all Optional (C24_optional_partial), or whose unions leave the permissive loader no choice (C24_nochoice_partial). With unions the results may differ (C24_union_counterexample) or permissive loading may even refuse (C24_refused_counterexample).')
n('C25', 'Proved for types without unions (C25_partial), whose unions are all Optional (C25_optional_partial), or whose unions leave the permissive loader no choice (C25_nochoice_partial), and steady values (Dict[..int..] with bools excluded because of finding 1, where even repeated identical loads differ). With unions the results may differ (C25_union_counterexample) or permissive loading may even refuse (C25_refused_counterexample).')
n('C29', 'False when names are mangled: C29_renamed_counterexample. Proved for Dict and for object types without renamed fields, results and errors.')
n('C32', 'False for enums with hints: C32_enum_counterexample (finding 10). C32_render_iff characterises exactly when rendering works. For a union nested in a union the printed path starts at the inner union, not at the root; C32_nested says exactly what is printed there.')
n('C35', 'The clause "Pattern[bytes] accepts only bytes" is FALSE: C35_parameter_counterexample (finding 6). Everything else is an equivalence.')
n('C42', 'Full statement is FALSE for Dict[timedelta,int] (C42_timedelta_counterexample) and for unions whose members overlap. C42_values_partial: every value of the judgement Fits, any history, provided no bool meets a Dict[..int..].')
n('C43', 'Full statement is FALSE when the discriminator field has a default: C43_discriminator_counterexample. C43_values_partial as C42, up to Python equality.')
n('C47', 'FALSE for TypedDicts whose discriminator is NotRequired[Literal] (C47_hidden_literal_counterexample: the first load rewrites the class annotations); proved for all other worlds.')
n('C49', 'FALSE for unions with two iterable members (C49_union_counterexample) and for objects (C49_object_counterexample: the result is not a dict); proved for the types of PlainData. C49_again: the same, with the same loader, for types without forward references and Dict.')
n('C19', 'C19_same_result for values, C19_same_error for errors up to the value carried by the error.')
n('C20', 'The TypeError with a non-string extra key is finding 3 (C20_non_string_counterexample).')
n('C33', 'OverflowError is finding 5.')
n('C36', 'Constructor and str() are world parameters; round trip assumes str() round-trips for that class.')
n('C38', 'The proviso is necessary: C38_untruthful_counterexample.')
n('C44', 'The proviso on empty names is necessary: C44_empty_counterexample.')
n('C45', 'Provisos necessary: C45_circular, C45_union_counterexample, C45_char_counterexample.')
n('C53', 'The proviso on conditions is necessary: C53_value_condition_counterexample (finding 18).')
n('C59', 'Full statement is FALSE of the code: C59_unregistered_counterexample (finding 23), C59_rebound_counterexample (finding 24), and wherever C06 is. Proved for every interleaving, any number of threads and any history, under the conditions of C06 if the names of the forward references in use are registered before (or by nobody); unconditionally (but for NotRequiredLaw, SteadyTags, default handlers) for types without forward references and Dict. C59_user_partial: the same for any handler list, user handlers included, under the conditions of C06_user_partial. Termination and absence of deadlock are unconditional. The caches are right at every moment whatever the threads do: constructor shared of Reachable, so the theorems about reachable loaders hold of loaders in use by threads.')
n('C60', 'As C03, C05 and C32 (same exceptions to the claims, same counterexamples), for every interleaving of any number of calls on a loader with any history, no condition on names; trace and basiccast=False claims are unrestricted.')
n('C61', 'Full statement is FALSE of the code: C61_str_counterexample (str(dict) with basiccast), C61_keys_counterexample ({5: a, "5": b} into Dict[int, str]), C61_crash_counterexample (finding 26). C61_strict proves it for basiccast=False, sturdy types and dictionaries keyed by strings, with any failonextra; C61_json for all json data; C61_key_order_partial in general, under the absence of exactly these three.')
n('C62', 'Full statement is FALSE of the code: C62_counterexample (a union takes a RecursionError, wrapped by the handler of tuples, for a refusal: finding 27), C62_enum_counterexample (Enum with two annotations). C62_optional: true when all unions are Optional and Enums have at most one annotation; C62_no_wrong_value_partial: whenever the data leaves no choice (of any two members one refuses). Also asked for: the conditions of C06.')
n('C72', 'Proved in full for List, Set, FrozenSet, Tuple[T, ...] and Optional of these. FALSE for fixed-size tuples (C72_tuple_counterexample, finding 2) and for unions with several members that take elements (C72_union_counterexample, finding 33); C72_union_partial says what a union does.')
n('C73', 'FALSE of the code for Dicts where the handler mix-up of _dictload matters (C73_mixup_counterexample, finding 1); constructors that raise StopIteration are excluded (C15_truncation_counterexample). Otherwise proved for all types at once (Spec/Conversion.lean), sequentially and for every interleaving.')
n('C74', 'FALSE of the code where a failing member aborts a union (C74_tuple_counterexample, finding 2), where the first member of a union makes an unhashable value for a set although another would not (C74_hash_counterexample), for Namespaces and renamed fields (C74_namespace_counterexample), and where C73 is. Proved, with exactly these situations excluded (Spec/Completeness.lean), for every history; examples instantiate it for all data at once.')
n('C77', 'As C73, on which it rests: the types met must not run into the handler mix-up of _dictload (finding 1), constructors must not raise StopIteration. The condition on keys is needed (C77_tuple_key_counterexample, C77_date_key_counterexample).')
n('C78', 'As C74, on which it rests, and the conditions of ReadsBack, which are needed (C78_union_counterexample: Union[float, timedelta]; C78_hidden_counterexample: hidedefault hides True where the default is 1).')
n('C80','FALSE of the code: where the members of a union share two Literal fields, set.pop() chooses the discriminator, so that the member whose instance is returned (C80_seed_counterexample, finding 37) and the class of the exception (C80_error_counterexample) depend on PYTHONHASHSEED. Proved under the conditions of C74 (Consistent for acceptance, Unambiguous for the value), for all data, types and seeds.')
n('C81', 'FALSE of the code where two members take the data (C81_order_counterexample) and where a member crashes on the data (C81_crash_counterexample, finding 2). Proved under the conditions of C74 for every reordering at any depth, in types and class annotations; forward references must denote classes.')
n('C82', 'FALSE of the code where a basic type is added (C82_basic_counterexample: it takes data that another member converted), where the added member takes the data first (C82_ambiguous_counterexample) and where the added member crashes on the data (C82_crash_counterexample, finding 2). Proved under the conditions of C74 for every widening at any depth, in types and class annotations.')
n('C84', 'FALSE of the code for a handler inserted at the very front: C84_front_counterexample (finding 39). Proved for every other place, and for the front when no annotation met announces elements of a basic type.')
json.dump(N, open('/verif/tools/status.json', 'w'), indent=1)
