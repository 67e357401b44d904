{
 "claims": [
  {
   "property": "C01",
   "status": "proved",
   "theorems": [
    "Verif.Props.C01_path_round_trip"
   ],
   "note": "Both notations, arbitrary nesting; the call stack must be deeper than the text is long."
  },
  {
   "property": "C02",
   "status": "proved",
   "theorems": [
    "Verif.Props.C02_parse_outcomes",
    "Verif.Props.C02_parse_iff",
    "Verif.Props.C02_accepted_well_formed"
   ],
   "note": "Accepted texts are exactly those of the grammar in Verif/Spec/Path.lean. RecursionError is possible only if the text is at least as long as the remaining stack."
  },
  {
   "property": "C03",
   "status": "proved",
   "theorems": [
    "Verif.Props.C03_history_independent",
    "Verif.Props.C03_same_object",
    "Verif.Props.C03_distinct_objects"
   ],
   "note": "Objects are numbers in a modelled heap; histories may contain invalid texts and stack overflows."
  },
  {
   "property": "C04",
   "status": "proved",
   "theorems": [
    "Verif.Props.C04_is_ancestor_iff",
    "Verif.Props.C04_strict_order"
   ],
   "note": "The relation ignores indices, as the code does."
  },
  {
   "property": "C05",
   "status": "proved",
   "theorems": [
    "Verif.Props.C05_goto_sound",
    "Verif.Props.C05_goto_complete",
    "Verif.Props.C05_goto_from_root",
    "Verif.Props.C05_goto_relative",
    "Verif.Props.C05_goto_from_element",
    "Verif.Props.C05_prefix_index_ignored"
   ],
   "note": "All positions, all parsed paths including nested index paths. Indices written on the shared leading names are ignored by the code (C05_prefix_index_ignored). Non-lazy trees; names that are Python attributes rather than children are not modelled."
  },
  {
   "property": "C06",
   "status": "proved",
   "theorems": [
    "Verif.Props.C06_reported_path_leads_back",
    "Verif.Props.C06_reported_paths_distinct"
   ],
   "note": "For every node of every tree whose names are Data Dictionary names."
  },
  {
   "property": "C07",
   "status": "proved",
   "theorems": [
    "Verif.Props.C07_iter_members",
    "Verif.Props.C07_iter_order",
    "Verif.Props.C07_iter_once",
    "Verif.Props.C07_iter_after_reads"
   ],
   "note": "tree_iter started at a structure; trees with distinct sibling names. Non-lazy."
  },
  {
   "property": "C08",
   "status": "proved",
   "theorems": [
    "Verif.Props.C08_has_value_iff",
    "Verif.Props.C08_reads_keep_has_value",
    "Verif.Props.C08_reads_keep_content",
    "Verif.Props.C08_reads_keep_values",
    "Verif.Props.C08_fresh_empty"
   ],
   "note": "Reads are attribute, item and value accesses in any number and order. Non-lazy."
  },
  {
   "property": "C09",
   "status": "proved",
   "theorems": [
    "Verif.Props.C09_assign_read",
    "Verif.Props.C09_unset_reads_default",
    "Verif.Props.C09_stored_type",
    "Verif.Props.C09_assign_node",
    "Verif.Props.C09_converted",
    "Verif.Props.C09_wrong_rank",
    "Verif.Props.C09_sizes",
    "Verif.Props.C09_assign_in_tree"
   ],
   "note": "Type conversions of Python and numpy for objects of another type are abstract (any functions returning the promised type). Aliasing of array objects is not part of this claim."
  },
  {
   "property": "C10",
   "status": "proved",
   "theorems": [
    "Verif.Props.C10_resize_keep",
    "Verif.Props.C10_resize_fresh",
    "Verif.Props.C10_resize_negative",
    "Verif.Props.C10_append",
    "Verif.Props.C10_set_item",
    "Verif.Props.C10_in_tree",
    "Verif.Props.C10_history_keeps"
   ],
   "note": "append does not check the type of elements in the code; the statement was adjusted."
  },
  {
   "property": "C11",
   "status": "proved",
   "theorems": [
    "Verif.Props.C11_sound",
    "Verif.Props.C11_copy_same",
    "Verif.Props.C11_shows_one_tree",
    "Verif.Props.C11_succeeds",
    "Verif.Props.C11_usable",
    "Verif.Props.C11_lazy_refused",
    "Verif.Props.C11_independent",
    "Verif.Props.C11_copy_keeps",
    "Verif.Props.C11_original_keeps",
    "Verif.Props.C11_inner_independent",
    "Verif.Props.C11_inner_parent_limit",
    "Verif.Props.C11_equal"
   ],
   "note": "Objects with identities: which node refers to which other object, arrays that share memory, memo of copy.deepcopy, all operations of the node API. Independence is shown for all interleaved histories of two programs, one starting with the copy and one with any older objects. Equality uses the tree equality of C12. Copies of nodes inside an IDS are independent as long as nobody follows references to parents; such a copy keeps the parent of the original (C11_inner_parent_limit)."
  },
  {
   "property": "C12",
   "status": "partial",
   "theorems": [
    "Verif.Props.C12_values",
    "Verif.Props.C12_equal_same_values",
    "Verif.Props.C12_same_content_equal",
    "Verif.Props.C12_equal_iff_partial",
    "Verif.Props.C12_reflexive",
    "Verif.Props.C12_symmetric",
    "Verif.Props.C12_reads",
    "Verif.Props.C12_empty_elements_ignored",
    "Verif.Props.C12_not_transitive",
    "Verif.Props.C12_reported_both",
    "Verif.Props.C12_reported_left",
    "Verif.Props.C12_reported_right",
    "Verif.Props.C12_no_value_missed",
    "Verif.Props.C12_no_value_missed_right"
   ],
   "note": "Proved: equal structures have the same filled data nodes with equal values; same values and sizes imply equality; reflexivity (also with NaN), symmetry, independence of reads. The iff needs that no structure consists of arrays of empty elements only: C12_empty_elements_ignored and C12_not_transitive show the code ignores such arrays when the structure is missing on the other side. Non-lazy structures."
  },
  {
   "property": "C13",
   "status": "partial",
   "theorems": [
    "Verif.Props.C13_same_contents_same_hash_partial",
    "Verif.Props.C13_same_hash_same_contents",
    "Verif.Props.C13_reads",
    "Verif.Props.C13_only_version_put_counts",
    "Verif.Props.C13_digested"
   ],
   "note": "Both directions. Same contents give the same hash provided no part has all its values in version_put (C13_only_version_put_counts shows the code fails otherwise); same hash gives the same contents unless two digested strings collide or a digest equals a shifted sibling name rest plus digest (names are not length prefixed). OverflowError of integers outside 32 bits is modelled as failure."
  },
  {
   "property": "C14",
   "status": "proved",
   "theorems": [
    "Verif.Props.C14_documented",
    "Verif.Props.C14_accepts_only",
    "Verif.Props.C14_trailing_text_accepted",
    "Verif.Props.C14_unambiguous"
   ],
   "note": "ASCII names. The code accepts any text after the digit of the rank (C14_trailing_text_accepted)."
  },
  {
   "property": "C15",
   "status": "proved",
   "theorems": [
    "Verif.Props.C15_unchanged",
    "Verif.Props.C15_node_unchanged",
    "Verif.Props.C15_refused",
    "Verif.Props.C15_attribute_refused",
    "Verif.Props.C15_path_refused",
    "Verif.Props.C15_put_refused",
    "Verif.Props.C15_serialize_refused",
    "Verif.Props.C15_replace_limit",
    "Verif.Props.C15_inplace_limit",
    "Verif.Props.C15_moved_limit"
   ],
   "note": "On the object model (Verif.Model.Heap). C15_unchanged and C15_node_unchanged: any program of checked operations, from the empty heap, with any number of lazily loaded IDSs. C15_refused, C15_attribute_refused, C15_path_refused: every node found in a lazy IDS refuses modification and the heap is unchanged. C15_put_refused, C15_serialize_refused. C15_replace_limit, C15_inplace_limit and C15_moved_limit show that the three excluded operations do change what is read (findings)."
  },
  {
   "property": "C16",
   "status": "proved",
   "theorems": [
    "Verif.Props.C16_assign",
    "Verif.Props.C16_assign_refused",
    "Verif.Props.C16_assign_lazy",
    "Verif.Props.C16_eq_iff",
    "Verif.Props.C16_assign_then_eq",
    "Verif.Props.C16_equal_values_merge"
   ],
   "note": "Parsing the XML text and splitting the alias attribute are not modelled; the enum construction is. Requires distinct names and values in the list (C16_equal_values_merge shows what happens otherwise)."
  },
  {
   "property": "C17",
   "status": "proved",
   "theorems": [
    "Verif.Props.C17_grammar",
    "Verif.Props.C17_any_text",
    "Verif.Props.C17_int"
   ],
   "note": ""
  },
  {
   "property": "C18",
   "status": "proved",
   "theorems": [
    "Verif.Props.C18_validate_iff_valid",
    "Verif.Props.C18_homogeneous_time"
   ],
   "note": "Every rule of validate; the numeric arrays are abstract with a shape. Lookups that fail with an error other than ValidationError are ignored by the code and by the specification. Non-lazy IDSs."
  },
  {
   "property": "C19",
   "status": "proved",
   "theorems": [
    "Verif.Props.C19_errors_are_violations",
    "Verif.Props.C19_reads",
    "Verif.Props.C19_coordinate_reads"
   ],
   "note": "Errors other than ValidationError (Defect) are possible on malformed dictionaries (size 0, same_as targets lacking the dimension) and are characterised. Non-lazy IDSs."
  },
  {
   "property": "C20",
   "status": "proved",
   "theorems": [
    "Verif.Props.C20_lookup",
    "Verif.Props.C20_ambiguous"
   ],
   "note": "All trees; time coordinates, alternatives, sizes."
  },
  {
   "property": "C21",
   "status": "proved",
   "theorems": [
    "Verif.Props.C21_inverse",
    "Verif.Props.C21_linked",
    "Verif.Props.C21_found",
    "Verif.Props.C21_nothing",
    "Verif.Props.C21_nothing_old",
    "Verif.Props.C21_unmapped",
    "Verif.Props.C21_unmapped_old",
    "Verif.Props.C21_unmapped_level",
    "Verif.Props.C21_unmapped_level_old",
    "Verif.Props.C21_added",
    "Verif.Props.C21_changes",
    "Verif.Props.C21_change_found",
    "Verif.Props.C21_points_found",
    "Verif.Props.C21_unsupported",
    "Verif.Props.C21_name_rule",
    "Verif.Props.C21_prefix_limit",
    "Verif.Props.C21_reuse_limit",
    "Verif.Props.C21_name_rule_limit",
    "Verif.Props.C21_split_limit",
    "Verif.Props.C21_child_limit"
   ],
   "note": "For every pair of dictionaries in document order with one-to-one annotations and no sibling name that extends the name of a renamed structure; each condition is shown necessary (C21_reuse_limit, C21_split_limit, C21_prefix_limit), and the types of children of renamed structures are not checked by the code (C21_child_limit). The DD3 to DD4 rule for names and identifiers is covered by C21_name_rule. ids_properties/source and the migration of obsolete nodes (GH#55) are C56; tbp and ctxpath are in C57. Previous names may be paths (movedDicts); structures they lead into must not be renamed themselves (Inner)."
  },
  {
   "property": "C22",
   "status": "proved",
   "theorems": [
    "Verif.Props.C22_value_moved",
    "Verif.Props.C22_type_change_moved",
    "Verif.Props.C22_size_moved",
    "Verif.Props.C22_no_other_value",
    "Verif.Props.C22_no_other_size",
    "Verif.Props.C22_one_to_one",
    "Verif.Props.C22_exactly",
    "Verif.Props.C22_identity",
    "Verif.Props.C22_identity_equal",
    "Verif.Props.C22_leaving_array_limit",
    "Verif.Props.C22_there_and_back",
    "Verif.Props.C22_round_trip_size",
    "Verif.Props.C22_round_trip_everywhere",
    "Verif.Props.C22_round_trip_value"
   ],
   "note": "For every tree, dictionary and map given as functions; separation (nothing else writes to the target) is derived from a one-to-one map (C22_one_to_one) and shown necessary (C22_leaving_array_limit). Assignment to a data node is a parameter here. Whether the map built from the Data Dictionary is one-to-one is C21. Log messages, the pulse_schedule callback and array sharing are not part of this model."
  },
  {
   "property": "C23",
   "status": "proved",
   "theorems": [
    "Verif.Props.C23_structure_array",
    "Verif.Props.C23_scalar_array_scalar",
    "Verif.Props.C23_array_scalar_array",
    "Verif.Props.C23_array_not_copied",
    "Verif.Props.C23_default_item_limit",
    "Verif.Props.C23_int_flt_int",
    "Verif.Props.C23_flt_int_flt",
    "Verif.Props.C23_flt_not_copied",
    "Verif.Props.C23_empty_int_limit",
    "Verif.Props.C23_indices_identifiers_indices"
   ],
   "note": "0D/1D of all base types, INT_0D/FLT_0D, INT_1D/identifier arrays, structure/array of structures: round trips through two whole conversions for every value, with documented failures and the values that a 0D node cannot hold as limits. That every node goes back to its own place is derived for one-to-one inverse maps (C22_there_and_back). numpy's conversion of one-item lists and int/float conversions are assumed exact."
  },
  {
   "property": "C24",
   "status": "proved",
   "theorems": [
    "Verif.Props.C24_paths",
    "Verif.Props.C24_paths_back",
    "Verif.Props.C24_negated",
    "Verif.Props.C24_unlisted",
    "Verif.Props.C24_round_trip",
    "Verif.Props.C24_empty_limit"
   ],
   "note": "For data nodes in any tree, values of all numeric types and ranks. The ThereAndBack hypothesis follows from one-to-one inverse maps (C22_there_and_back). 9e40 in a 0D node is lost (C24_empty_limit). The special case of the structure magnetics/flux_loop/flux and log messages are outside the theorems."
  },
  {
   "property": "C25",
   "status": "proved",
   "theorems": [
    "Verif.Props.C25_old_to_new",
    "Verif.Props.C25_old_new_old",
    "Verif.Props.C25_new_old_new",
    "Verif.Props.C25_thickness",
    "Verif.Props.C25_limits"
   ],
   "note": ""
  },
  {
   "property": "C26",
   "status": "proved",
   "theorems": [
    "Verif.Props.C26_connections_3_4_3",
    "Verif.Props.C26_connections_4_3_4",
    "Verif.Props.C26_connections_shape",
    "Verif.Props.C26_ill_formed_converted"
   ],
   "note": ""
  },
  {
   "property": "C27",
   "status": "proved",
   "theorems": [
    "Verif.Props.C27_base",
    "Verif.Props.C27_samples",
    "Verif.Props.C27_kept",
    "Verif.Props.C27_others",
    "Verif.Props.C27_between",
    "Verif.Props.C27_unchanged",
    "Verif.Props.C27_post_limit"
   ],
   "note": "All items, times and data; times are rational numbers (all finite doubles are), the floating point formula for one interpolated point is a parameter (C27_between is about exact arithmetic). The theorems assume nodes that do not share a target (Alone, Reserved), that items with time dependent data contain times, and that time dependent nodes have no post-processing: the code overwrites post-processed values with resampled ones (C27_post_limit)."
  },
  {
   "property": "C28",
   "status": "proved",
   "theorems": [
    "Verif.Props.C28_one_entry_added",
    "Verif.Props.C28_other_nodes_kept",
    "Verif.Props.C28_nothing_added",
    "Verif.Props.C28_history",
    "Verif.Props.C28_source_migrated"
   ],
   "note": ""
  },
  {
   "property": "C29",
   "status": "proved",
   "theorems": [
    "Verif.Props.C29_dimensions",
    "Verif.Props.C29_coordinates",
    "Verif.Props.C29_terminates",
    "Verif.Props.C29_acyclic"
   ],
   "note": "Dimensions of every node of every Data Dictionary tree for which the constructor succeeds, both time modes; sharing is exactly as the Data Dictionary says (C29_dimensions). Resolving references ends if they are not circular (C29_terminates), and circular ones are never accepted (C29_acyclic). C29_coordinates gives the coordinates of every variable in both time modes."
  },
  {
   "property": "C30",
   "status": "proved",
   "theorems": [
    "Verif.Props.C30_round_trip",
    "Verif.Props.C30_fill_value_limit",
    "Verif.Props.C30_complex_limit"
   ],
   "note": "For every Data Dictionary for which NCMetadata succeeds, every IDS with a valid time mode, with and without validation. Storable: if some node with a path is unset, 0D values with this path must differ from the fill value (C30_fill_value_limit) and complex ones must all be set (C30_complex_limit, a defect). ErrorsOk: only data nodes have error bars, as in every Data Dictionary (C33_error_names_limit). Empty arrays come back as unset. Together with C32 the same holds for lazy reads."
  },
  {
   "property": "C31",
   "status": "proved",
   "theorems": [
    "Verif.Props.C31_sizes",
    "Verif.Props.C31_fits"
   ],
   "note": "For every Data Dictionary for which NCMetadata succeeds and every IDS whose values have the rank that the Data Dictionary says (RanksOk; IDS nodes check this on assignment). C31_sizes: the size of each dimension is the maximum over all nodes that use it. C31_fits: variables have the sizes of their dimensions, each value is stored at its indices, all other places contain the fill value."
  },
  {
   "property": "C32",
   "status": "proved",
   "theorems": [
    "Verif.Props.C32_lazy_conversion",
    "Verif.Props.C32_lazy",
    "Verif.Props.C32_renamed_array_limit"
   ],
   "note": "For every stored group that an eager read accepts, whoever wrote it, with or without validation, and every sequence of accesses. Variable names in a group are distinct (NamesOk), as netCDF guarantees. With conversion: for maps that keep the kind and nesting of nodes (Aligned) and arrays of structures that are sparse or not renamed; C32_renamed_array_limit shows that a renamed array of structures that is not sparse cannot be read lazily. A group that an eager read refuses is outside the statement, since lazy reading reads less."
  },
  {
   "property": "C33",
   "status": "proved",
   "theorems": [
    "Verif.Props.C33_exact",
    "Verif.Props.C33_written",
    "Verif.Props.C33_error_names_limit",
    "Verif.Props.C33_missing_shape_limit"
   ],
   "note": "C33_exact: for every group, whoever wrote it, InvalidNetCDFEntry is raised iff the group does not agree with the Data Dictionary (ValidGroup, stated without the validation functions). It assumes that dimensions of variables exist (netCDF guarantees it) and that sparse variables with dimensions have a :shape variable; C33_missing_shape_limit shows that otherwise AttributeError is raised. C33_written: groups written by the library are valid."
  },
  {
   "property": "C34",
   "status": "proved",
   "theorems": [
    "Verif.Props.C34_group_name",
    "Verif.Props.C34_first_put_wins",
    "Verif.Props.C34_put_fresh",
    "Verif.Props.C34_refused",
    "Verif.Props.C34_get_missing",
    "Verif.Props.C34_get_missing_occurrence",
    "Verif.Props.C34_list_all_occurrences",
    "Verif.Props.C34_failed_put_blocks"
   ],
   "note": "The format of a group is abstract. A put that fails midway leaves the group, so that a later put is refused (C34_failed_put_blocks): the code violates the natural reading for failed puts. Reading a missing occurrence of an IDS that has another occurrence raises IndexError rather than DataEntryException (C34_get_missing_occurrence), given how netCDF4 looks up paths."
  },
  {
   "property": "C35",
   "status": "proved",
   "theorems": [
    "Verif.Props.C35_paths",
    "Verif.Props.C35_sources",
    "Verif.Props.C35_dataset",
    "Verif.Props.C35_coordinates_data",
    "Verif.Props.C35_refused",
    "Verif.Props.C35_array_limit"
   ],
   "note": "C35_paths: the selection terminates and gives exactly the closure (Needed), for all coordinate graphs. C35_dataset: contents of the data set, for all trees; it assumes that coordinates are data nodes (C35_sources and C35_coordinates_data reduce this to the Data Dictionary) and that the arrays of structures around coordinates are chosen. C35_array_limit shows that the code violates the natural reading otherwise: selecting a path whose coordinate is in another array of structures raises KeyError. The constructor of xarray.Dataset is not modelled."
  },
  {
   "property": "C36",
   "status": "proved",
   "theorems": [
    "Verif.Props.C36_put_get",
    "Verif.Props.C36_equal"
   ],
   "note": "The low-level library is modelled as a store of values per (array indices, path) and array sizes (Model/AlStore.lean); that the real backends behave like this is assumed. For every tree, time mode, and earlier content of the occurrence. 0D values equal to the 'not set' values are excluded; conversions between numpy and the library are not modelled."
  },
  {
   "property": "C37",
   "status": "proved",
   "theorems": [
    "Verif.Props.C37_appended",
    "Verif.Props.C37_dynamic_only",
    "Verif.Props.C37_all_written",
    "Verif.Props.C37_other_mode",
    "Verif.Props.C37_unreadable",
    "Verif.Props.C37_empty_occurrence",
    "Verif.Props.C37_reading"
   ],
   "note": "For every low-level library (arbitrary answers and failures) and every tree; the calls made are those of put_children. C37_appended: for a library that appends locally, what is stored afterwards, outside time-dependent arrays of structures (how the library numbers their elements is outside the repository)."
  },
  {
   "property": "C38",
   "status": "proved",
   "theorems": [
    "Verif.Al.C38_same",
    "Verif.Al.C38_closed_limit",
    "Verif.Al.C38_put_limit"
   ],
   "note": "For every history of operations before and after the lazy get, every tree, every map between versions, every way of getting (whole, slice, samples) and every pattern of Python references to cached contexts (held). The low-level library is assumed to behave as Model/AlStore.lean. The theorem asks that the entry is not closed and the occurrence is not put again in between; C38_closed_limit and C38_put_limit show why (after closing, a repeated access silently gives an unset node)."
  },
  {
   "property": "C39",
   "status": "proved",
   "theorems": [
    "Verif.Props.C39_discipline",
    "Verif.Props.C39_nothing_left",
    "Verif.Props.C39_closed",
    "Verif.Props.C39_close",
    "Verif.Props.C39_once"
   ],
   "note": "For every low-level library, every interleaving of eager, lazy and write operations and every failure. Which lazily loaded nodes still reference a cached context (Python reference counting) is an oracle. A failing end of an action is not modelled."
  },
  {
   "property": "C40",
   "status": "proved",
   "theorems": [
    "Verif.Props.C40_errors",
    "Verif.Props.C40_reopen",
    "Verif.Props.C40_protocol",
    "Verif.Props.C40_closed_entry_refuses",
    "Verif.Props.C40_open",
    "Verif.Props.C40_close",
    "Verif.Props.C40_with_block",
    "Verif.Props.C40_with_raises",
    "Verif.Props.C40_with_completes"
   ],
   "note": "Backend arbitrary, may fail at any call. If the backend's close itself raises, the entry stays open; the theorems say so. C40_errors: every exception of the backend is the result of the operation, and it is the last call."
  },
  {
   "property": "C41",
   "status": "proved",
   "theorems": [
    "Verif.Props.C41_returned_version",
    "Verif.Props.C41_refused",
    "Verif.Props.C41_get",
    "Verif.Props.C41_destination_limits"
   ],
   "note": "If the caller supplies a destination of another version, the code picks the map of the entry version (C41_destination_limits)."
  },
  {
   "property": "C42",
   "status": "proved",
   "theorems": [
    "Verif.Props.C42_refused",
    "Verif.Props.C42_stored",
    "Verif.Props.C42_stored_ids"
   ],
   "note": "Backend arbitrary. The validation result is a parameter of the IDS."
  },
  {
   "property": "C43",
   "status": "partial",
   "theorems": [
    "Verif.Props.C43_round_trip",
    "Verif.Props.C43_succeeds",
    "Verif.Props.C43_deserialize_leaves_no_file",
    "Verif.Props.C43_malformed_refused",
    "Verif.Props.C43_serialize_leaves_no_file_partial",
    "Verif.Props.C43_successful_serialize_leaves_no_file",
    "Verif.Props.C43_failed_put_leaves_file"
   ],
   "note": "The Access Layer encodings are abstract; assumed faithful when nothing fails. If put or close fails in serialize, the temporary file stays (C43_failed_put_leaves_file), so the cleanup claim is partial for serialize."
  },
  {
   "property": "C44",
   "status": "partial",
   "theorems": [
    "Verif.Props.C44_returned_model_complete_partial",
    "Verif.Props.C44_model_not_replaced",
    "Verif.Props.C44_failed_build_removes_model",
    "Verif.Props.C44_race_raises",
    "Verif.Props.C44_alone"
   ],
   "note": "The claim holds without failing builds; a failing process removes a finished model (C44_failed_build_removes_model) and a race raises (C44_race_raises): the code violates the full claim."
  },
  {
   "property": "C45",
   "status": "partial",
   "theorems": [
    "Verif.Props.C45_returned_file_complete_partial",
    "Verif.Props.C45_truncated_file_accepted"
   ],
   "note": "Holds if no earlier extraction was interrupted after the version tag; C45_truncated_file_accepted shows the code violates the full claim."
  },
  {
   "property": "C46",
   "status": "proved",
   "theorems": [
    "Verif.Props.C46_explicit_version",
    "Verif.Props.C46_selection_order",
    "Verif.Props.C46_default_is_newest",
    "Verif.Props.C46_changed_file_not_reloaded"
   ],
   "note": ""
  },
  {
   "property": "C47",
   "status": "proved",
   "theorems": [
    "Verif.Props.C47_lookup",
    "Verif.Props.C47_names_unique",
    "Verif.Props.C47_own_path",
    "Verif.Props.C47_data_tree"
   ],
   "note": ""
  },
  {
   "property": "C48",
   "status": "proved",
   "theorems": [
    "Verif.Props.C48_refused",
    "Verif.Props.C48_values",
    "Verif.Props.C48_kept",
    "Verif.Props.C48_time",
    "Verif.Props.C48_same_times",
    "Verif.Props.C48_no_time_dimension",
    "Verif.Props.C48_slices_limit"
   ],
   "note": "For every tree, dictionary and interpolation (scipy's interp1d is a parameter that works line by line; C48_same_times assumes that it meets its samples). C48_slices_limit: a dynamic node inside time slices makes resampling fail and leaves an IDS half resampled. The copy made when inplace is false is C11."
  },
  {
   "property": "C49",
   "status": "proved",
   "theorems": [
    "Verif.Props.C49_get",
    "Verif.Props.C49_put",
    "Verif.Props.C49_renamed_type_change_limit",
    "Verif.Props.C49_moved_into_array_limit"
   ],
   "note": "For every map that describes a one-to-one link between the nodes of the two versions which keeps the arrays of structures around a node; a node that moves into an array is not found (C49_moved_into_array_limit) and a node with both another name and another type is not skipped (C49_renamed_type_change_limit). The low-level library is modelled as in C36."
  },
  {
   "property": "C50",
   "status": "proved",
   "theorems": [
    "Verif.Props.C50_find_paths",
    "Verif.Props.C50_no_duplicates"
   ],
   "note": ""
  },
  {
   "property": "C51",
   "status": "proved",
   "theorems": [
    "Verif.Props.C51_reading"
   ],
   "note": ""
  },
  {
   "property": "C52",
   "status": "proved",
   "theorems": [
    "Verif.Props.C52_delete"
   ],
   "note": ""
  },
  {
   "property": "C53",
   "status": "proved",
   "theorems": [
    "Verif.Props.C53_list",
    "Verif.Props.C53_each",
    "Verif.Props.C53_refused"
   ],
   "note": ""
  },
  {
   "property": "C54",
   "status": "proved",
   "theorems": [
    "Verif.Props.C54_get",
    "Verif.Props.C54_put",
    "Verif.Props.C54_put_slice",
    "Verif.Props.C54_lazy"
   ],
   "note": ""
  },
  {
   "property": "C55",
   "status": "proved",
   "theorems": [
    "Verif.Props.C55_tree",
    "Verif.Props.C55_no_axis",
    "Verif.Props.C55_slices",
    "Verif.Props.C55_secondary_limit"
   ],
   "note": "The limit that a secondary separatrix without a first one is dropped is C55_secondary_limit."
  },
  {
   "property": "C56",
   "status": "proved",
   "theorems": [
    "Verif.Props.C56_migrated",
    "Verif.Props.C56_below",
    "Verif.Props.C56_kept",
    "Verif.Props.C56_sound",
    "Verif.Props.C56_source",
    "Verif.Props.C56_two_sources_limit",
    "Verif.Props.C56_overwritten_limit"
   ],
   "note": "Paths concerned by the rule for names and identifiers are excluded (C21_name_rule). Limits: C56_two_sources_limit, C56_overwritten_limit. Only the path of the 3.41 map is migrated; its type change handlers are not."
  },
  {
   "property": "C57",
   "status": "proved",
   "theorems": [
    "Verif.Props.C57_get_old",
    "Verif.Props.C57_get_new",
    "Verif.Props.C57_put_old",
    "Verif.Props.C57_put_new",
    "Verif.Props.C57_time_base",
    "Verif.Props.C57_time_base_new",
    "Verif.Props.C57_time_base_limit"
   ],
   "note": "The maps of C21 satisfy the assumptions of C49: composition of both. No renamed field may have another type (C49_renamed_type_change_limit). C57_time_base_limit: renamed nodes in dynamic arrays of structures are read and written with a time base. Nodes may have moved to another structure, except out of an array of structures (Placed)."
  },
  {
   "property": "C58",
   "status": "proved",
   "theorems": [
    "Verif.Props.C58_sent_new",
    "Verif.Props.C58_sent_old",
    "Verif.Props.C58_value_new",
    "Verif.Props.C58_value_old",
    "Verif.Props.C58_size_new",
    "Verif.Props.C58_size_old",
    "Verif.Props.C58_no_other_new",
    "Verif.Props.C58_no_other_old",
    "Verif.Props.C58_succeeds_new",
    "Verif.Props.C58_succeeds_old",
    "Verif.Props.C58_reversible_new",
    "Verif.Props.C58_reversible_old",
    "Verif.Props.C58_round_trip_new",
    "Verif.Props.C58_round_trip_old",
    "Verif.Props.C58_inner_limit"
   ],
   "note": "Composition of C21 (the map from the dictionaries) and C22 (conversion with a given map); the assumptions of C22 on the map (one-to-one, inverse) are derived. Conversion raises no error unless assigning an unchanged value or a conversion or post-processing function does (C58_succeeds_new, C58_succeeds_old). Changes of type in renamed structures must be announced (C58_inner_limit). The extra rules of DD3 to DD4 are C27, C28, C55, C56. Conversion functions of other type changes are parameters; they are C23 to C26. Nodes may have moved out of structures that only the older version has; such structures are not arrays and neither their names nor paths of renamed fields are used again (Nested)."
  },
  {
   "property": "C59",
   "status": "proved",
   "theorems": [
    "Verif.Props.C59_read",
    "Verif.Props.C59_empty"
   ],
   "note": "For any backend: what a slice or a time range of stored data shows is a parameter. Data of the version of the data entry; for other versions see C49 and C57. Lazy reads are C37."
  },
  {
   "property": "C60",
   "status": "proved",
   "theorems": [
    "Verif.Props.C60_version",
    "Verif.Props.C60_after_put"
   ],
   "note": "C60_after_put assumes what C36 assumes."
  },
  {
   "property": "C61",
   "status": "proved",
   "theorems": [
    "Verif.Props.C61_context",
    "Verif.Props.C61_dynamic",
    "Verif.Props.C61_time_base",
    "Verif.Props.C61_units",
    "Verif.Props.C61_coordinates",
    "Verif.Props.C61_accepts",
    "Verif.Props.C61_relative"
   ],
   "note": "C61_relative links the context paths of the metadata to the relative paths used in C36, C49 and C54. Spellings of data types are those of C14."
  },
  {
   "property": "C62",
   "status": "proved",
   "theorems": [
    "Verif.Props.C62_attribute",
    "Verif.Props.C62_item",
    "Verif.Props.C62_resize",
    "Verif.Props.C62_append",
    "Verif.Props.C62_set_item",
    "Verif.Props.C62_set_value",
    "Verif.Props.C62_get_value",
    "Verif.Props.C62_new_element",
    "Verif.Props.C62_new_ids",
    "Verif.Props.C62_set_attr",
    "Verif.Props.C62_write"
   ],
   "note": "A refinement between the model of Python objects (Heap) and the model of IDS contents (Tree). Arrays may be shared, nodes not: assigned structures must be in no IDS. C62_set_attr is about children that were accessed before (C62_attribute). Assigning one data node to another is not covered."
  },
  {
   "property": "C63",
   "status": "proved",
   "theorems": [
    "Verif.Props.C63_arguments",
    "Verif.Props.C63_one_meaning",
    "Verif.Props.C63_errors",
    "Verif.Props.C63_keyword_order",
    "Verif.Props.C63_shot",
    "Verif.Props.C63_new_entry",
    "Verif.Props.C63_nothing_opened",
    "Verif.Props.C63_open_once"
   ],
   "note": "Arguments are None, integers, texts and paths. Names of keyword arguments are distinct, as Python requires. The Data Dictionary (dd_version, xml_path) is C46."
  },
  {
   "property": "C64",
   "status": "proved",
   "theorems": [
    "Verif.Props.C64_open_uri",
    "Verif.Props.C64_unknown_mode",
    "Verif.Props.C64_no_access_layer",
    "Verif.Props.C64_open_legacy",
    "Verif.Props.C64_path_limit"
   ],
   "note": "The Access Layer and mdsplus_model_dir are oracles (C44, C45 are about the latter). Bundled definitions say their own version. lower() is modelled for ASCII letters, and names of backends are letters and digits."
  },
  {
   "property": "C65",
   "status": "proved",
   "theorems": [
    "Verif.Props.C65_converted",
    "Verif.Props.C65_succeeds",
    "Verif.Props.C65_failed",
    "Verif.Props.C65_refused",
    "Verif.Props.C65_closed",
    "Verif.Props.C65_left_out_limit",
    "Verif.Props.C65_default_dictionary_limit"
   ],
   "note": "The data entries, the conversion (C22) and the provenance entry (C28) are oracles; list_all_occurrences is assumed to list the filled occurrences, each once. The command line parser, the progress bar and timings are not modelled."
  },
  {
   "property": "C66",
   "status": "proved",
   "theorems": [
    "Verif.Props.C66_accepts",
    "Verif.Props.C66_all_groups",
    "Verif.Props.C66_invalid",
    "Verif.Props.C66_refused",
    "Verif.Props.C66_readable",
    "Verif.Props.C66_written",
    "Verif.Props.C66_unusual_names_limit",
    "Verif.Props.C66_switched_off_limit",
    "Verif.Props.C66_index_limit",
    "Verif.Props.C66_sizes_limit"
   ],
   "note": "Groups below those of occurrences are not represented (neither validating nor reading looks at them). What netCDF4 guarantees is assumed: distinct names, data with the sizes of their dimensions. Reading is without conversion to another version."
  },
  {
   "property": "C67",
   "status": "proved",
   "theorems": [
    "Verif.Props.C67_get_old",
    "Verif.Props.C67_get_new",
    "Verif.Props.C67_removed_limit"
   ],
   "note": "Both directions for all pairs of dictionaries, as far as no node moved out of an array of structures (Placed, as in C57). Data inside structures that are missing or have another type in the target version are excluded; C67_removed_limit shows that reading fails then."
  },
  {
   "property": "C68",
   "status": "proved",
   "theorems": [
    "Verif.Props.C68_file",
    "Verif.Props.C68_name_limit",
    "Verif.Props.C68_analyze",
    "Verif.Props.C68_master_limit",
    "Verif.Props.C68_rows",
    "Verif.Props.C68_shares",
    "Verif.Props.C68_twice_limit",
    "Verif.Props.C68_overview",
    "Verif.Props.C68_tree"
   ],
   "note": "JSON and gzip are not modelled: reading gives what was written, and writing succeeds. Shares are exact quotients (the code writes floats). That no path is listed twice for one occurrence is a hypothesis; C68_twice_limit shows what happens otherwise."
  },
  {
   "property": "C69",
   "status": "proved",
   "theorems": [
    "Verif.Props.C69_assign",
    "Verif.Props.C69_append",
    "Verif.Props.C69_extend",
    "Verif.Props.C69_item",
    "Verif.Props.C69_slice",
    "Verif.Props.C69_extended",
    "Verif.Props.C69_list",
    "Verif.Props.C69_unchanged",
    "Verif.Props.C69_slice_fails",
    "Verif.Props.C69_strings",
    "Verif.Props.C69_insert_limit"
   ],
   "note": "Python's conversions to text and its iteration are oracles; slices follow CPython's list_ass_subscript. C69_insert_limit: insert is forwarded to the list and stores any object."
  },
  {
   "property": "C70",
   "status": "proved",
   "theorems": [
    "Verif.Props.C70_expression",
    "Verif.Props.C70_ufunc",
    "Verif.Props.C70_limits",
    "Verif.Props.C70_augmented",
    "Verif.Props.C70_lazy_limit"
   ],
   "note": "What operators do with ordinary values is a parameter. Which method Python and numpy call follows their documented rules (numpy is not available here). C70_limits and C70_lazy_limit show where data nodes and their values differ."
  },
  {
   "property": "C71",
   "status": "proved",
   "theorems": [
    "Verif.Props.C71_print_structure",
    "Verif.Props.C71_print_values",
    "Verif.Props.C71_print_reads",
    "Verif.Props.C71_print_array",
    "Verif.Props.C71_print_data",
    "Verif.Props.C71_print_metadata",
    "Verif.Props.C71_inspect",
    "Verif.Props.C71_identical",
    "Verif.Props.C71_table",
    "Verif.Props.C71_texts"
   ],
   "note": "Lines and their depths; how rich draws them and how values are formatted is not modelled. get_matching_blocks of difflib is a parameter with its documented guarantees. Of inspect only the table of children. Not lazy loaded."
  },
  {
   "property": "C72",
   "status": "proved",
   "theorems": [
    "Verif.Props.C72_no_library",
    "Verif.Props.C72_library",
    "Verif.Props.C72_missing",
    "Verif.Props.C72_missing_always",
    "Verif.Props.C72_version",
    "Verif.Props.C72_unknown",
    "Verif.Props.C72_guard",
    "Verif.Props.C72_success",
    "Verif.Props.C72_failure",
    "Verif.Props.C72_write_limit",
    "Verif.Props.C72_exceptions",
    "Verif.Props.C72_interpolation",
    "Verif.Props.C72_occurrences",
    "Verif.Props.C72_iterate",
    "Verif.Props.C72_step",
    "Verif.Props.C72_end",
    "Verif.Props.C72_end_limit"
   ],
   "note": "The library is a parameter. Comparison of versions is a parameter of C72_guard. timerange_action, which looks at no status, is not included. C72_write_limit and C72_end_limit show where failures are hidden or misreported."
  },
  {
   "property": "C73",
   "status": "proved",
   "theorems": [
    "Verif.Props.C73_sent_new",
    "Verif.Props.C73_source",
    "Verif.Props.C73_sent_old",
    "Verif.Props.C73_value_new",
    "Verif.Props.C73_value_old",
    "Verif.Props.C73_size_new",
    "Verif.Props.C73_size_old",
    "Verif.Props.C73_no_other_new",
    "Verif.Props.C73_no_other_old",
    "Verif.Props.C73_round_trip_new",
    "Verif.Props.C73_round_trip_old",
    "Verif.Props.C73_description_limit",
    "Verif.Props.C73_succeeds_new",
    "Verif.Props.C73_succeeds_old"
   ],
   "note": "C58 for the map with the extra rules of DD3 to DD4 (lines 387-394 and 424-462). Assumes that the dictionaries say nothing about the fields that change places (Silent); C73_description_limit shows what happens otherwise. The function for ids_properties/source is a parameter (C28). The rule for DD 3.42 and newer is C56. Values at or around ids_properties/provenance are only claimed if the source is not set (Untouched). C73_succeeds_new/old: the conversion raises no error if the functions it calls raise none (from DD3, only for dictionaries with ids_properties/source and ids_properties/provenance)."
  },
  {
   "property": "C74",
   "status": "proved",
   "theorems": [
    "Verif.Props.C74_new",
    "Verif.Props.C74_old",
    "Verif.Props.C74_round_trip_new",
    "Verif.Props.C74_round_trip_old",
    "Verif.Props.C74_listed_limit",
    "Verif.Props.C74_succeeds_new",
    "Verif.Props.C74_succeeds_old"
   ],
   "note": "C73 with the sign changes of C24 as post-processing. Assumes that labelled and listed paths are data nodes (the label on flux_loop/flux, whose child data changes sign, is not covered here), that no name or identifier is labelled, and that a listed path of DD4 is also a path of DD3; C74_listed_limit shows what happens without the last one. A value whose negative is the marker of an unset node reads as this negative, but the node then counts as unset (the clause with Real). C74_succeeds_new/old: the conversion raises no error if every value fits the field it belongs to and the conversion functions raise none."
  },
  {
   "property": "C75",
   "status": "proved",
   "theorems": [
    "Verif.Props.C75_builtin",
    "Verif.Props.C75_rejected",
    "Verif.Props.C75_array_truth",
    "Verif.Props.C75_str",
    "Verif.Props.C75_asarray",
    "Verif.Props.C75_limits"
   ],
   "note": "Python's builtin functions on ordinary values are a parameter that obeys the rules in Spec/Numbers (Python). The order of classes in which Python looks for methods and the methods of the numbers module are part of the model. C75_builtin holds for the functions and classes of Works; what happens for the others is in C75_rejected, C75_array_truth, C75_asarray and C75_limits."
  },
  {
   "property": "C76",
   "status": "proved",
   "theorems": [
    "Verif.Props.C76_path",
    "Verif.Props.C76_all"
   ],
   "note": "Generators are modelled as lists; the IDS is not changed during the iteration. Lists ties each yielded pair to an address of the IDS; the order is that of C07."
  },
  {
   "property": "C77",
   "status": "proved",
   "theorems": [
    "Verif.Props.C77_nodes",
    "Verif.Props.C77_item_limit",
    "Verif.Props.C77_removed_limit"
   ],
   "note": "Programs obey CarefulProg: assigned structures and appended structures are nowhere yet, item assignment gets a structure made for the array, and deep-copied parts have no node at two places; C77_item_limit shows that the condition on item assignment is needed. The part about paths asks that no child has an empty name. The first argument of the functions that climb is the call stack that is left."
  },
  {
   "property": "C78",
   "status": "proved",
   "theorems": [
    "Verif.Props.C78_steps",
    "Verif.Props.C78_from_element",
    "Verif.Props.C78_negative",
    "Verif.Props.C78_reported",
    "Verif.Props.C78_nested",
    "Verif.Props.C78_zero_limit",
    "Verif.Props.C78_item_limit"
   ],
   "note": "Programs are those of C77. C78_steps and C78_from_element ask that no node of the IDS is at two places (the names of data nodes are found through their parent in the model). Nested index paths are part of the model of goto but not of these statements; C05 covers them on trees."
  },
  {
   "property": "C79",
   "status": "proved",
   "theorems": [
    "Verif.Props.C79_old",
    "Verif.Props.C79_new",
    "Verif.Props.C79_put_new",
    "Verif.Props.C79_put_old"
   ],
   "note": "Combination of C36, C57 and C58 on the same dictionaries and the same stored data. Previous names have one part (Level); moves between structures are in C57 and C58 only. The conversion is assumed to succeed here (C58_succeeds_new/old say when it does). Post-processing is for data nodes only."
  },
  {
   "property": "C80",
   "status": "proved",
   "theorems": [
    "Verif.Props.C80_read_only",
    "Verif.Props.C80_same_object",
    "Verif.Props.C80_content",
    "Verif.Props.C80_builds",
    "Verif.Props.C80_failed",
    "Verif.Props.C80_thread_limit",
    "Verif.Props.C80_overlap_limit"
   ],
   "note": "One thread; the limits C80_thread_limit and C80_overlap_limit are about two. XML elements are numbers and the constructor is a script of assignments. _type_map, the children's own identity within the tree (C47, C50) and writing into __dict__ from outside are not represented."
  },
  {
   "property": "C81",
   "status": "proved",
   "theorems": [
    "Verif.Props.C81_table",
    "Verif.Props.C81_axes"
   ],
   "note": "Times are integers, so sums do not depend on the order of addition as they do for floating point numbers; number format and title are not modelled. Sections are listed in the order in which they end. C81_axes follows directly from the test in the code."
  }
 ]
}