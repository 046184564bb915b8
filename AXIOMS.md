# Axioms of the property theorems

Output of `#print axioms`, grouped (`tools/gen_axioms.py`).

## none (3)

`SmtFp.C101_minmax_refuted`, `SmtFp.C105_unbound`, `C150_properties`

## propext (79)

`C03_int`, `C07_int_amount_refuted`, `C08_int_amount_refuted`, `C12_refuted`, `C18_negative`, `C23_left_refuted`, `C24_left_refuted`, `C29_int_refuted`, `C29_right_rshift_refuted`, `C29_ext_zero_refuted`, `C30_invert`, `C30_arithmetic`, `C40_value_named`, `C40_bad_arguments`, `C43_implies`, `C52_assigned_negation`, `C54_undeclared`, `C57_complete_partial`, `C58_auto`, `C60_anon_negation`, `C60_modified_negation`, `C63_duplicates`, `C63_unwrap_unmodified`, `C64_anon_negation`, `C65_duplicates_negation`, `C65_anon_negation`, `C66_visits`, `C66_leaves`, `C66_instance_no_handler_negation`, `C68_class`, `C69_refuted`, `C70_refuted`, `C76_alias_refuted`, `C76_sort_refuted`, `C82_predicates_partial`, `C82_negative_zero_refuted`, `C88_self`, `C89_modified_negation`, `C97_bad_arguments`, `C98_refuted`, `SmtFp.C102_ne_partial`, `SmtFp.C103_refused_partial`, `SmtFp.C104_term`, `SmtFp.C104_copy`, `SmtFp.C106_roundtrip`, `C108_automatic_refuted`, `C108_families_refuted`, `C108_width_refuted`, `C112_unambiguous`, `C112_prefix_free`, `C112_lines_partial`, `C112_lines_refuted`, `C117_vector`, `C118_reuse_refuted`, `C122_vector_str`, `C122_assigned_refuted`, `C124_clean`, `C125_collision`, `C126_operand_vector`, `C128_other_operators`, `C129_refuted`, `Der.C131_methods`, `Der.C131_adc_raises`, `Der.C131_operators_raise`, `C133_mixed_refuted`, `C136_pair_refuted`, `C136_cycle_refuted`, `C136_find_widths_refuted`, `C137_is`, `C137_no_remainder`, `Z3.Der.C138_z3_readings`, `C140_bit`, `C140_bit_raises`, `C142_z3_value`, `C143_length`, `C154_one_outcome`, `C157_product_refuted`, `C167_addition_excluded`, `C170_mixed_excluded`

## propext, Classical.choice, Quot.sound (850)

`C01_programs`, `C01_operations`, `C02_construct`, `C02_construct_seq_bit`, `C03_as_sint`, `C03_unique`, `C03_reconstruct`, `C04_bits`, `C04_bits_length`, `C04_bits_roundtrip`, `C04_seq2int_int2seq`, `C04_int2seq_seq2int`, `C04_binary_string`, `C04_as_binary_string`, `C04_as_bool_list`, `C05_bvadd`, `C05_bvsub`, `C05_bvmul`, `C05_bvneg`, `C05_ring`, `C05_signed`, `C06_bvnot`, `C06_bvand`, `C06_bvor`, `C06_bvxor`, `C06_bvnand`, `C06_bvnor`, `C06_bvxnor`, `C06_bits_determine`, `C07_bvshl`, `C07_bvlshr`, `C07_bvashr`, `C07_overshift_num`, `C07_overshift`, `C07_int_amount_partial`, `C08_bvror`, `C08_bvrol`, `C08_inverse`, `C08_zero_width`, `C08_int_amount_partial`, `C09_bveq`, `C09_bvne`, `C09_bvult`, `C09_bvule`, `C09_bvugt`, `C09_bvuge`, `C09_bvcomp`, `C09_trichotomy`, `C10_bvslt`, `C10_bvsle`, `C10_bvsgt`, `C10_bvsge`, `C10_trichotomy`, `C11_bvudiv`, `C11_bvurem`, `C11_identity`, `C12_sdiv_partial`, `C12_srem_partial`, `C12_by_zero_refuted`, `C12_sdiv_iff`, `C13_division`, `C13_by_zero`, `C14_concat`, `C14_bits`, `C14_split`, `C14_assoc`, `C15_index`, `C15_getitem`, `C15_slice_bits`, `C15_slice_elem`, `C15_slice_arith`, `C15_reverse`, `C16_setitem`, `C16_setitem_errors`, `C16_history`, `C17_zext`, `C18_sext_partial`, `C18_zero_raises`, `C18_zero_refuted`, `C19_repeat`, `C20_adc`, `C20_chain`, `C21_overflow`, `C22_methods`, `C22_operators`, `C23_methods`, `C23_right`, `C23_left_compare`, `C23_left_partial`, `C23_rshift_swapped`, `C24_right`, `C24_left_partial`, `C24_left_nameError`, `C25_operators`, `C26_key_injective`, `C26_equal_hash`, `C26_cross_class`, `C27_selects`, `C27_total`, `C27_vec`, `C27_vector_condition`, `C28_errors`, `C28_condition_independent`, `C29_operators`, `C29_ite_reading`, `C29_ite_operator`, `C29_class`, `C29_int`, `C29_ext_partial`, `C29_vectors_partial`, `C29_widths`, `C30_construct`, `C30_right`, `C30_left`, `C31_interned`, `C31_total`, `C31_injective`, `C31_rejects`, `C32_monotone`, `C32_no_mixing`, `C33_int`, `C33_structured`, `C34_defined`, `C34_bvnot`, `C34_bvneg`, `C34_bvand`, `C34_bvor`, `C34_bvxor`, `C34_bvnand`, `C34_bvnor`, `C34_bvxnor`, `C34_bvshl`, `C34_bvlshr`, `C34_bvashr`, `C34_bvadd`, `C34_bvsub`, `C34_bvmul`, `C34_bvudiv`, `C34_bvurem`, `C34_bvcomp`, `C34_bveq`, `C34_bvne`, `C34_bvult`, `C34_bvule`, `C34_bvugt`, `C34_bvuge`, `C34_bvslt`, `C34_bvsle`, `C34_bvsgt`, `C34_bvsge`, `C35_symbolic_is_smtlib`, `C35_division_partial`, `C35_refuted`, `C36_construct`, `C36_index`, `C36_slice`, `C36_concat`, `C36_zext`, `C36_sext`, `C36_adc`, `C36_setitem`, `C37_repeat_partial`, `C37_refuted`, `C38_ite`, `C38_vector_ite`, `C39_vector`, `C39_bit`, `C40_fresh`, `C40_total`, `C40_distinct`, `C40_live_name`, `C40_explicit`, `C41_as_sint_partial`, `C41_refuted`, `C42_ops`, `C42_floordiv_partial`, `C42_neg`, `C43_to_hwtypes`, `C44_roundtrip`, `C44_nan`, `C44_object`, `C44_representable`, `C45_fields`, `C45_value`, `C45_size`, `C46_subnormal`, `C46_nan`, `C46_roundtrip`, `C46_objects`, `C47_by_fields`, `C47_partition`, `C48_numbers`, `C48_exact`, `C48_max`, `C48_min`, `C49_rounds_partial`, `C49_RNA_actual`, `C49_sign`, `C49_RNA_refuted`, `C50_tuple`, `C50_product`, `C50_product_rejects`, `C50_assign`, `C50_invariant_partial`, `C50_slice_negation`, `C51_index`, `C51_name`, `C51_history`, `C51_slice`, `C51_slice_accepts`, `C51_fresh`, `C51_frame`, `C52_eq_partial`, `C52_fieldwise_partial`, `C52_hash_partial`, `C52_unhashable_negation`, `C52_reachable_negation`, `C53_keys`, `C53_illtyped`, `C53_count`, `C53_tuple`, `C53_tagged`, `C53_sum`, `C53_roundtrip_tuple`, `C53_roundtrip_fresh_partial`, `C53_roundtrip_assigned_negation`, `C53_roundtrip_sum_partial`, `C53_roundtrip_tagged_partial`, `C53_overlap_negation`, `C53_none_negation`, `C53_tagged_none_negation`, `C53_subclass_negation`, `C54_invariant`, `C55_one_active_partial`, `C56_refl`, `C56_trans_partial`, `C56_hash_partial`, `C56_hash_word`, `C56_trans_negation`, `C56_hash_negation`, `C57_enumerate_partial`, `C57_distinct`, `C57_derived_negation`, `C59_tuple`, `C59_sum`, `C59_anonymous`, `C59_getitem_injective`, `C59_class`, `C59_from_fields`, `C59_from_fields_kinds`, `C59_bound_item`, `C59_class_injective`, `C59_kinds_apart`, `C59_uncached`, `C59_fields`, `C59_dunder_negation`, `C59_dunder_ignored`, `C60_back_partial`, `C61_simultaneous_partial`, `C61_idempotent_partial`, `C62_interned`, `C62_injective`, `C62_recover`, `C62_subclass`, `C62_unmodified`, `C62_twice_error`, `C62_derived_negation`, `C63_wrap_unwrap`, `C63_again`, `C66_no_handler_negation`, `C66_instance_partial`, `C66_none_negation`, `C66_twice_negation`, `C67_frozen`, `C67_ordered`, `C67_separates`, `C67_mixed`, `C67_mixed_negation`, `C68_class_iff`, `C68_fields`, `C68_anonymous`, `C68_listed`, `C68_agree`, `C69_symmetric_partial`, `C69_bit_vector`, `C70_operands_unchanged`, `C70_assignment_local_partial`, `C70_remainder_shared`, `C71_refuted`, `C71_nonint_partial`, `C72_construct_partial`, `C72_operators_partial`, `C72_construct_refuted`, `C72_empty_slice_refuted`, `C72_sext_zero_refuted`, `C72_repeat_rotate_refuted`, `C72_as_sint_refuted`, `C73_rotate_int`, `C73_rotate_object`, `C73_rotate_bool`, `C74_left`, `C74_right_partial`, `C74_concrete`, `C75_left`, `C75_right`, `C75_vectors`, `C75_compare_left`, `C75_compare_right`, `C75_compare_vectors`, `C75_bit_left_refuted`, `C76_new_variable_partial`, `C77_exact`, `C77_rounded_partial`, `C77_RNA`, `C77_special`, `C77_total`, `C78_fma`, `C78_special`, `C79_comm`, `C79_sub`, `C79_one`, `C79_zero`, `C79_self`, `C80_construct`, `C80_operations`, `C81_order`, `C81_nan`, `C81_trichotomy`, `C82_neg`, `C82_abs_partial`, `C82_abs_refuted`, `C83_truncates`, `C83_raises`, `C83_integers`, `C84_mismatch`, `C84_converts`, `C84_identity`, `C84_between`, `C84_vector`, `C85_minmax`, `C85_nan`, `C86_remainder`, `C86_special`, `C87_integral_partial`, `C87_RNA`, `C87_RNA_refuted`, `C88_replaces_partial`, `C88_absent_partial`, `C88_nested_negation`, `C88_modified_negation`, `C89_family_partial`, `C90_monotone`, `C90_anonymous`, `C90_product`, `C90_tagged`, `C90_fields`, `C90_derived_returns`, `C90_enum_returns`, `C90_derived`, `C91_construct`, `C91_names_negation`, `C92_defined`, `C92_bvnot`, `C92_bvneg`, `C92_bvand`, `C92_bvor`, `C92_bvxor`, `C92_bvnand`, `C92_bvnor`, `C92_bvxnor`, `C92_bvshl`, `C92_bvlshr`, `C92_bvashr`, `C92_bvadd`, `C92_bvsub`, `C92_bvmul`, `C92_bvudiv`, `C92_bvurem`, `C92_bvsrem`, `C92_bvrol`, `C92_bvror`, `C92_bvcomp`, `C92_bveq`, `C92_bvne`, `C92_bvult`, `C92_bvule`, `C92_bvugt`, `C92_bvuge`, `C92_bvslt`, `C92_bvsle`, `C92_bvsgt`, `C92_bvsge`, `C93_sdiv_is_smtlib`, `C93_sdiv_partial`, `C93_sdiv_iff`, `C93_concrete`, `C93_recompose`, `C93_refuted`, `C94_construct`, `C94_index`, `C94_slice`, `C94_concat`, `C94_zext`, `C94_sext`, `C94_adc`, `C94_setitem`, `C94_repeat`, `C94_refuted`, `C95_right`, `C95_vectors_partial`, `C95_compare`, `C95_compare_right`, `C95_compare_left`, `C95_bits`, `C95_left_raises`, `C95_bit_vector`, `C95_mixed`, `C95_refuted`, `C96_select`, `C96_convert`, `C96_bare`, `C96_bits`, `C96_ints`, `C96_vector_condition`, `C96_refuted`, `C97_total`, `C97_fresh`, `C97_distinct`, `C97_independent`, `C97_live_name`, `C97_explicit`, `C97_width0`, `C98_new_constant_partial`, `C98_live_kept`, `SmtFp.C99_sound`, `SmtFp.C99_std`, `SmtFp.C99_same_name`, `SmtFp.C100_valid`, `SmtFp.C101_returns_partial`, `SmtFp.C101_to_sbv_refuted`, `SmtFp.C102_free`, `SmtFp.C102_laws_refuted`, `SmtFp.C103_concrete`, `SmtFp.C103_format_refuted`, `SmtFp.C104_number_refuted`, `SmtFp.C105_declare`, `SmtFp.C105_std`, `SmtFp.C106_concrete_payload`, `C107_rounded_partial`, `C107_RNA`, `C107_special`, `C107_total`, `C107_exact`, `C107_finite`, `C107_mono`, `C108_fresh`, `C108_named_partial`, `C108_live_name`, `C108_independent_partial`, `FpCls.C109_interned`, `FpCls.C109_total`, `FpCls.C109_injective`, `FpCls.C109_rejects`, `FpCls.C109_types_refuted`, `FpCls.C109_types_partial`, `FpCls.C110_monotone`, `FpCls.C110_no_mixing`, `FpCls.C110_class_statement`, `C111_value`, `C111_finite_partial`, `C111_class`, `C111_infinite`, `C111_covers`, `C111_finite_refuted`, `C111_exponent_refuted`, `C113_uniform_unsigned`, `C113_uniform_signed`, `C113_refuted`, `C114_concrete`, `C114_smt_partial`, `C114_z3_partial`, `C114_class_refuted`, `C115_operators`, `C115_vectors_partial`, `C115_widths`, `C115_unusable`, `C115_right_partial`, `C115_concrete_partial`, `C115_ite_operator`, `C115_ext`, `C115_right_rshift_refuted`, `C116_interned`, `C116_distinct`, `C116_type`, `C116_types_distinct`, `C117_vector_bound`, `C117_vector_distinct`, `C117_adt`, `C117_adt_distinct`, `C118_properties_partial`, `C118_body`, `C119_numbers_partial`, `C119_vectors_partial`, `C119_foreign_partial`, `C119_foreign_range`, `C119_foreign_double`, `C119_foreign_refuted`, `C119_raises`, `C120_exact`, `C120_roundtrip`, `C120_rounded_partial`, `C120_precision_refuted`, `C120_range_refuted`, `C121_call`, `C121_program`, `C121_undecorated`, `C122_repr_partial`, `C122_str_partial`, `C122_equal_partial`, `C122_class`, `C122_vector`, `C122_sum_refuted`, `C123_smt`, `C123_z3`, `C123_smt_verdict`, `C123_z3_verdict`, `C123_same_verdict`, `C123_replay`, `C123_replay_z3`, `C123_returns`, `C124_smt_partial`, `C124_z3_partial`, `C124_smt_verdict_partial`, `C124_z3_verdict_partial`, `C124_same_verdict`, `C124_refuted`, `C124_separate`, `C125_one_class_partial`, `C125_mixed_partial`, `C126_silent_partial`, `C126_operand_partial`, `C126_int_like`, `C126_int_refuted`, `C126_negative_refuted`, `C126_width_zero_refuted`, `C126_needless`, `C126_smt`, `C126_z3_partial`, `C127_decode_warnings`, `C127_decode`, `C127_encode`, `C128_modular`, `C128_reference`, `C128_identity`, `C128_exact`, `C129_exact_partial`, `C129_compare_partial`, `C130_smt`, `C130_smt_identity`, `C130_smt_exact_partial`, `C130_z3_partial`, `C130_z3_exact_partial`, `Der.C131_readings`, `Der.C131_operators`, `Der.C131_operators_int_partial`, `Der.C131_rrshift`, `Der.C131_ite`, `C131_cached`, `C131_hierarchy`, `C132_applied`, `C132_nodup`, `C132_unwrap`, `C132_determined`, `C132_issubclass_partial`, `C132_refuted`, `C133_layout`, `C133_fields`, `C133_repack`, `C133_update`, `C133_smt`, `C133_z3`, `C133_update_symbolic`, `C134_smt`, `C134_z3`, `C134_values_unseen`, `C134_verdict`, `C135_smt_bits_partial`, `C135_vectors`, `C136_compare`, `C136_pair`, `C136_sorted`, `C136_min_max`, `C136_find`, `C136_smt`, `C136_z3`, `C136_z3_refuted`, `C136_smt_refuted`, `C137_smt_partial`, `C137_z3_partial`, `C137_verdict_partial`, `C137_same_verdict`, `C137_values_unseen_partial`, `Smt.Der.C138_smt_sized_subclass_raises`, `Smt.Der.C138_smt_operators`, `Smt.Der.C138_smt_operators_int_partial`, `Smt.Der.C138_smt_rrshift`, `Z3.Der.C138_z3_sized_subclass_raises`, `Z3.Der.C138_z3_operators_partial`, `Z3.Der.C138_z3_sdiv`, `Z3.Der.C138_z3_compare`, `Z3.Der.C138_z3_ite`, `C139_methods`, `C139_comparisons`, `C139_operators_partial`, `C139_compare`, `C139_bit_operators`, `C139_adc`, `C139_sequence`, `C139_sequence_refuted`, `C139_families_refuted`, `C140_construct_bool`, `C140_methods`, `C140_comparisons`, `C140_operators_partial`, `C140_compare`, `C140_bit_operators`, `C140_adc`, `C140_sequence`, `C140_sequence_raises`, `C140_sequence_agrees`, `C141_signed_refuted`, `C142_left_partial`, `C142_right_partial`, `C142_rshift_swapped`, `C142_raises`, `C142_compare`, `C142_same_class_partial`, `C142_construct`, `C142_bits_partial`, `C142_bit_vector`, `C142_bit_compare`, `C142_vector_bit_partial`, `C142_z3_left_partial`, `C142_z3_compare`, `C142_z3_right`, `C142_refuted`, `C142_bit_right_refuted`, `C142_z3_construct`, `C142_z3_construct_refuted`, `C143_concrete`, `C143_width_refuted`, `C143_smt_partial`, `C143_smt_ne_partial`, `C143_smt_tuple`, `C143_mixed_refuted`, `C143_z3_partial`, `C143_z3_refuted`, `C143_z3_bit_vector`, `C144_smt_partial`, `C144_verdict_partial`, `C144_replay_partial`, `C144_follows_condition`, `C144_z3_refuted`, `C145_meta_partial`, `C145_object_partial`, `C145_derived`, `C145_comment_refuted`, `C145_structural_refuted`, `C145_tower_refuted`, `C145_ite`, `C146_rebind`, `C146_back`, `C146_merge_refuted`, `C147_returns`, `C147_selects`, `C147_raises`, `C147_symbolic_returns`, `C147_symbolic_selects`, `C147_symbolic_attribute`, `C147_z3_one`, `C147_z3_both`, `C148_smt_unrolled`, `C148_z3_unrolled`, `C148_smt_replay`, `C148_z3_replay`, `C148_all_depths`, `C148_smt_induction`, `C148_z3_induction`, `C148_induction_exact`, `C149_unreached`, `C149_construct`, `C149_copy`, `C149_enumerate`, `C149_enumerate_assigned_partial`, `C149_enumerate_shared`, `C149_enumerate_refuted`, `C150_class_partial`, `C150_instance_partial`, `C150_undeclared`, `C150_stored`, `C150_reserved`, `C150_methods_refuted`, `C150_match_refuted`, `C150_name_refuted`, `C150_inherited_refuted`, `C151_simulation`, `C151_smt`, `C151_z3`, `C151_returns`, `C151_smt_verdict_partial`, `C151_z3_verdict_partial`, `C151_smt_output_partial`, `C151_z3_output_partial`, `C151_bits`, `C151_refuted`, `C152_unique`, `C152_expression`, `C152_eval_partial`, `C152_equal_partial`, `C152_fails`, `C152_product_refuted`, `C152_sum_refuted`, `C152_tagged_refuted`, `C152_empty_refuted`, `C153_simulation`, `C153_smt`, `C153_z3`, `C153_returns`, `C153_smt_verdict_partial`, `C153_z3_verdict_partial`, `C153_smt_output_partial`, `C153_z3_output_partial`, `C153_refuted`, `C154_simulation`, `C154_smt`, `C154_z3`, `C154_returns`, `C154_smt_verdict_partial`, `C154_z3_verdict_partial`, `C154_smt_output_partial`, `C154_z3_output_partial`, `C154_stops`, `C154_returns_all`, `C154_complete_partial`, `C154_refuted`, `C155_smt`, `C155_z3`, `C155_smt_verdict`, `C155_z3_verdict`, `C155_returns`, `C155_replay`, `C155_assign`, `C155_attribute`, `C155_rebind_partial`, `C155_rebind_refuted`, `C156_list`, `C156_reversed`, `C156_unpack`, `C156_roundtrip`, `C156_equal`, `C156_slice`, `C156_concat`, `C156_repeat`, `C156_any`, `C156_all`, `C156_in`, `C156_in_int`, `C156_sum`, `C156_update`, `C156_smt`, `C156_smt_truth`, `C156_z3`, `C156_z3_truth_refuted`, `C156_tuple`, `C157_copy`, `C157_deepcopy`, `C157_deep_product_refuted`, `C157_deep_value`, `C157_deep_independent`, `C157_auto_refuted`, `C158_map_partial`, `C158_assigned_refuted`, `C158_part_refuted`, `C158_derived_refuted`, `C159_lookup`, `C159_sized_partial`, `C159_error`, `C159_class`, `C159_refuted`, `C160_has_mro`, `C160_error`, `C160_applies`, `C160_mro`, `C160_fields`, `C160_refuted`, `C161_getitem`, `C161_statement_partial`, `C161_mixin_refuted`, `C161_fields_refuted`, `C162_adder`, `C162_add`, `C162_subtractor`, `C162_comparator`, `C162_signed_comparator`, `C162_equality`, `C162_multiplier`, `C162_shl`, `C162_lshr`, `C162_ashr`, `C162_divider`, `C163_neg`, `C163_sub`, `C163_mul_pow`, `C163_udiv_pow`, `C163_urem_pow`, `C163_sext`, `C163_rol`, `C163_carry_save`, `C163_or`, `C163_average`, `C163_de_morgan`, `C163_ite_mask`, `C163_slt_flip`, `C163_carry`, `C164_wiring`, `C164_one_digit`, `C164_success`, `C165_simulation`, `C165_families`, `C165_no_higher`, `C165_division_excluded`, `C166_parity`, `C166_changes`, `C166_and_excluded`, `C167_simulation`, `C167_families`, `C167_join`, `C168_vectors`, `C168_bits`, `C168_counterexample`, `C168_counterexample_z3`, `C168_counterexample_bits`, `C168_counterexample_bits_z3`, `C169_monotone`, `C169_masks`, `C169_smt`, `C169_z3`, `C169_excluded`, `C170_simulation`, `C170_families`

## propext, Quot.sound (143)

`C30_rejects`, `C32_class_statement`, `C38_selects`, `C39_assignment_exists`, `C39_swap`, `C41_as_uint`, `C42_not_numbers`, `C42_refuted`, `C43_total`, `C43_constructor_partial`, `C43_generator_refuted`, `C50_unbound`, `C50_rejected`, `C54_construct`, `C54_assign`, `C54_read`, `C55_construct`, `C55_assign`, `C55_history`, `C55_setitem`, `C55_by_type`, `C55_match_negation`, `C56_symm`, `C56_ne`, `C57_calls`, `C57_typed`, `C57_plain`, `C57_modified_negation`, `C58_same`, `C58_different_partial`, `C58_derived_negation`, `C58_access`, `C60_replaces_partial`, `C60_absent_partial`, `C60_enum`, `C60_body_negation`, `C61_modified_negation`, `C63_unwrap_wrap`, `C63_wraps`, `C64_strips_partial`, `C64_unmodified_partial`, `C64_body_negation`, `C65_pushes_partial`, `C65_duplicates_partial`, `C67_lookup`, `C68_from_fields`, `C68_other_negation`, `C73_rotate_raises`, `C73_rotate_vector_refuted`, `C74_rxor_refuted`, `C74_invert`, `C74_bad_int`, `C74_foreign`, `C89_leaf`, `C89_dropped_negation`, `C91_creates`, `C94_width_zero`, `C95_eq_none`, `C96_classes`, `SmtFp.C102_congruence_partial`, `SmtFp.C104_int`, `C113_negative`, `C113_bit`, `C115_class`, `C124_shared`, `C125_refuted`, `C126_z3_refuted`, `C130_refuted`, `Der.C131_comparisons`, `Der.C131_structure_partial`, `Der.C131_sized_subclass_raises`, `Der.C131_adc_partial`, `Der.C131_refuted`, `Der.C131_mixed_refuted`, `Der.C131_ite_refuted`, `C134_isBit`, `C134_z3_handlers_refuted`, `C135_refuted`, `C137_refuted`, `Smt.Der.C138_smt_construct_partial`, `Smt.Der.C138_smt_construct_raises`, `Smt.Der.C138_smt_methods_partial`, `Smt.Der.C138_smt_setitem`, `Smt.Der.C138_smt_comparisons_partial`, `Smt.Der.C138_smt_readings`, `Smt.Der.C138_smt_operand_raises`, `Smt.Der.C138_smt_structure_partial`, `Smt.Der.C138_smt_adc_partial`, `Smt.Der.C138_smt_adc_raises`, `Smt.Der.C138_smt_operators_widths`, `Smt.Der.C138_smt_operators_raise`, `Smt.Der.C138_smt_ite`, `Smt.Der.C138_smt_refuted`, `Smt.Der.C138_smt_convert_refuted`, `Smt.Der.C138_smt_ite_refuted`, `Z3.Der.C138_z3_construct_partial`, `Z3.Der.C138_z3_construct_raises`, `Z3.Der.C138_z3_methods_partial`, `Z3.Der.C138_z3_setitem`, `Z3.Der.C138_z3_comparisons_partial`, `Z3.Der.C138_z3_operand_raises`, `Z3.Der.C138_z3_structure_partial`, `Z3.Der.C138_z3_adc_partial`, `Z3.Der.C138_z3_adc_raises`, `Z3.Der.C138_z3_operators_widths`, `Z3.Der.C138_z3_refuted`, `Z3.Der.C138_z3_convert_refuted`, `C139_construct`, `C139_construct_raises`, `C139_bit`, `C139_roundtrip`, `C139_operand_raises`, `C139_bit_operand_raises`, `C139_adc_bool_refuted`, `C139_rejected`, `C140_construct`, `C140_construct_raises`, `C140_roundtrip`, `C140_operand_raises`, `C140_ite`, `C140_ite_refuted`, `C140_setitem_refuted`, `C141_construct`, `C141_total`, `C141_raises`, `C141_operators_partial`, `C141_reflected_partial`, `C141_roundtrip`, `C141_vector`, `C142_xor_refuted`, `C142_solvers`, `C143_z3_raises`, `C146_anon`, `C147_classes_refuted`, `C149_touched`, `C150_unbound_t_refuted`, `C155_tag`, `C155_sum`, `C155_inputs`, `C155_instr`, `C155_new`, `C155_classes`, `C158_hashable`
