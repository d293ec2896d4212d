{
 "claims": [
  {
   "property": "C01",
   "status": "proved",
   "theorems": [
    "Verif.Props.C01_flood_builds_component_tree",
    "Verif.Props.C01_memory_holds_component_tree"
   ],
   "note": ""
  },
  {
   "property": "C02",
   "status": "proved",
   "theorems": [
    "Verif.Props.C02_threshold_components_exactly_once",
    "Verif.Props.C02_same_label_iff"
   ],
   "note": ""
  },
  {
   "property": "C03",
   "status": "proved",
   "theorems": [
    "Verif.Props.C03_sizes_are_pixel_counts",
    "Verif.Props.C03_every_region_has_pixel"
   ],
   "note": ""
  },
  {
   "property": "C04",
   "status": "proved",
   "theorems": [
    "Verif.Props.C04_exact_step_count",
    "Verif.Props.C04_always_stops",
    "Verif.Props.C04_pass_completes",
    "Verif.Props.C04_second_pass_completes"
   ],
   "note": "The exact count is for images on which the component stack does not overflow (C08); C04_always_stops covers all images."
  },
  {
   "property": "C05",
   "status": "proved",
   "theorems": [
    "Verif.Props.C05_single_rooted_tree"
   ],
   "note": ""
  },
  {
   "property": "C06",
   "status": "proved",
   "theorems": [
    "Verif.Props.C06_stack_pointers_in_slices",
    "Verif.Props.C06_heap_never_out_of_bounds",
    "Verif.Props.C06_neighbours_in_array",
    "Verif.Props.C06_stack_pointers_in_slices_second",
    "Verif.Props.C06_heap_never_out_of_bounds_second",
    "Verif.Props.C06_patch_slices_fill_arrays"
   ],
   "note": "Flat heap array, stack pointers and sentinels; for patches of at most 2^29 pixels. The bright-only configuration is C46."
  },
  {
   "property": "C07",
   "status": "proved",
   "theorems": [
    "Verif.Props.C07_heap_empty_after_pass",
    "Verif.Props.C07_pointers_restored",
    "Verif.Props.C17_preparation_of_second_pass"
   ],
   "note": ""
  },
  {
   "property": "C08",
   "status": "partial",
   "theorems": [
    "Verif.Props.C08_stack_fits_partial",
    "Verif.Props.C08_stack_overrun",
    "Verif.Props.C08_stack_fits_false"
   ],
   "note": "Violated by the code: m_comp has 256 entries, the sentinel plus 256 gray levels need 257. Proved to hold for images with fewer than 256 different gray values; a family of overflowing images is given."
  },
  {
   "property": "C09",
   "status": "proved",
   "theorems": [
    "Verif.Props.C09_join_adds_adjacency",
    "Verif.Props.C09_share_region_iff_connected"
   ],
   "note": ""
  },
  {
   "property": "C10",
   "status": "proved",
   "theorems": [
    "Verif.Props.C10_sizes_exact_after_join"
   ],
   "note": ""
  },
  {
   "property": "C11",
   "status": "proved",
   "theorems": [
    "Verif.Props.C11_connect_terminates"
   ],
   "note": ""
  },
  {
   "property": "C12",
   "status": "proved",
   "theorems": [
    "Verif.Props.C12_tree_of_whole_image",
    "Verif.Props.C12_same_as_single_thread",
    "Verif.Props.C12_runs_to_completion",
    "Verif.Props.C12_bright_same_as_single_thread"
   ],
   "note": "V2, thread numbers 1, 4 and 32. Runs on which the component stack overflows (C08) are excluded."
  },
  {
   "property": "C13",
   "status": "proved",
   "theorems": [
    "Verif.Props.C13_join_order_irrelevant",
    "Verif.Props.C13_permutation",
    "Verif.Props.C13_joins_are_local",
    "Verif.Props.C13_disjoint_patches_commute"
   ],
   "note": ""
  },
  {
   "property": "C14",
   "status": "proved",
   "theorems": [
    "Verif.Props.C14_patches_tile_image",
    "Verif.Props.C14_patchOf_contains",
    "Verif.Props.C14_v2_division_is_v1",
    "Verif.Props.C14_remainder_in_last"
   ],
   "note": ""
  },
  {
   "property": "C15",
   "status": "proved",
   "theorems": [
    "Verif.Props.C15_joins_are_the_cross_patch_adjacencies",
    "Verif.Props.C15_each_adjacency_once",
    "Verif.Props.C15_cells_in_patches",
    "Verif.Props.C15_v1_joins_are_the_cross_patch_adjacencies"
   ],
   "note": "V2 with 1, 4, 32 threads and V1 with 1, 2, 4, 8, 16, 32 threads; images with at least one row and column per patch (see C66 for smaller ones)."
  },
  {
   "property": "C16",
   "status": "partial",
   "theorems": [
    "Verif.Props.C16_single_row_partial",
    "Verif.Props.C16_lower_rows_never_visited",
    "Verif.Props.C16_region_index_out_of_range",
    "Verif.Props.C16_eight_neighbour_false"
   ],
   "note": "Violated by the code: only 4 of the 8 directions are toured and the region index mask is the 4-neighbour one. Holds for images of one row."
  },
  {
   "property": "C17",
   "status": "proved",
   "theorems": [
    "Verif.Props.C17_preparation_of_second_pass",
    "Verif.Props.C17_bright_pass_builds_tree_of_inverted",
    "Verif.Props.C17_bright_is_dark_of_inverted"
   ],
   "note": "When both polarities are extracted. Bright-only extraction is C46."
  },
  {
   "property": "C18",
   "status": "proved",
   "theorems": [
    "Verif.Props.C18_value_serial",
    "Verif.Props.C18_value_parallel",
    "Verif.Props.C18_value_four",
    "Verif.Props.C18_value_exists_unique",
    "Verif.Props.C18_not_available_iff"
   ],
   "note": "V2. With one thread and delta <= 0 the code computes no value; the theorem for one thread has delta > 0. Parallel workers run one after the other here; interleaving is C24."
  },
  {
   "property": "C19",
   "status": "proved",
   "theorems": [
    "Verif.Props.C19_serial",
    "Verif.Props.C19_parallel",
    "Verif.Props.C19_four",
    "Verif.Props.C19_reported_within_limits",
    "Verif.Props.C23_image_serial",
    "Verif.Props.C23_image_parallel",
    "Verif.Props.C23_image_four"
   ],
   "note": "The configured maximum stability value is assumed to be at least -1 (the code stores -1 for 'not available')."
  },
  {
   "property": "C20",
   "status": "proved",
   "theorems": [
    "Verif.Props.C20_serial_selects_exactly",
    "Verif.Props.C20_order_irrelevant",
    "Verif.Props.C20_parallel_selects_exactly",
    "Verif.Props.C20_four_selects_exactly"
   ],
   "note": ""
  },
  {
   "property": "C21",
   "status": "proved",
   "theorems": [
    "Verif.Props.C21_one_and_32_agree",
    "Verif.Props.C21_one_and_4_agree",
    "Verif.Props.C21_image_1_and_32",
    "Verif.Props.C21_image_1_and_4"
   ],
   "note": "For delta >= 1, also end to end from a flooded image."
  },
  {
   "property": "C22",
   "status": "proved",
   "theorems": [
    "Verif.Props.C22_order_serial",
    "Verif.Props.C22_order_parallel",
    "Verif.Props.C22_order_four"
   ],
   "note": "A write outside the order array is the outcome none of the model, which the theorems exclude."
  },
  {
   "property": "C23",
   "status": "proved",
   "theorems": [
    "Verif.Props.C23_serial",
    "Verif.Props.C23_serial_no_delta",
    "Verif.Props.C23_parallel",
    "Verif.Props.C23_four",
    "Verif.Props.C23_kept_is_middle",
    "Verif.Props.C23_no_threshold",
    "Verif.Props.C23_image_serial",
    "Verif.Props.C23_image_parallel",
    "Verif.Props.C23_image_four"
   ],
   "note": ""
  },
  {
   "property": "C24",
   "status": "proved",
   "theorems": [
    "Verif.Props.C24_parents_kept",
    "Verif.Props.C24_no_crash_and_end",
    "Verif.Props.C24_writes_own_patch",
    "Verif.Props.C24_schedule_irrelevant_32",
    "Verif.Props.C24_schedule_irrelevant_4"
   ],
   "note": "For every schedule of single memory accesses under sequential consistency, both threaded variants; the C++ data race rules are outside the model."
  },
  {
   "property": "C25",
   "status": "proved",
   "theorems": [
    "Verif.Props.C25_runs",
    "Verif.Props.C25_points",
    "Verif.Props.C25_points_are_component"
   ],
   "note": "V2, four threads, from a flooded image through joining and recognition to the decoded points; images up to 65535 pixels wide (a coordinate of 65535 would be stored as -1)."
  },
  {
   "property": "C26",
   "status": "proved",
   "theorems": [
    "Verif.Props.C25_runs",
    "Verif.Props.C26_parts"
   ],
   "note": "Accesses outside the point array are the outcome none of the model, which C25_runs excludes; C26_parts: the areas are inside, disjoint and make up the array."
  },
  {
   "property": "C27",
   "status": "partial",
   "theorems": [
    "Verif.Props.C27_left_top_partial",
    "Verif.Props.C27_one_patch_partial",
    "Verif.Props.C27_false"
   ],
   "note": "Violated by the code: a block that extends the rectangle to the left (top) is not considered for the right (bottom). Left and top sides are always right, the right and bottom sides are never too far out, and regions inside one patch have the exact rectangle (sides of at most 32768)."
  },
  {
   "property": "C28",
   "status": "partial",
   "theorems": [
    "Verif.Props.C28_dark_partial",
    "Verif.Props.C28_bright_wrong",
    "Verif.Props.C28_false"
   ],
   "note": "Violated by the code for bright regions: the level of the inverted image is reported, for every image and every bright region. Proved for dark regions."
  },
  {
   "property": "C29",
   "status": "partial",
   "theorems": [
    "Verif.Props.C25_runs",
    "Verif.Props.C25_points",
    "Verif.Props.C29_few_threads_out_of_range",
    "Verif.Props.C29_further_patches_ignored",
    "Verif.Props.C29_false"
   ],
   "note": "Violated by the code: extraction always uses the patches 0 to 3. Proved for four threads; with one thread it always accesses patches that do not exist, with 32 threads it ignores 28 of them."
  },
  {
   "property": "C30",
   "status": "proved",
   "theorems": [
    "Verif.Props.C30_flood_lists",
    "Verif.Props.C30_flood_sublists",
    "Verif.Props.C30_flood_own_points",
    "Verif.Props.C30_lists_after_joining",
    "Verif.Props.C30_sublists_after_joining"
   ],
   "note": "For flooding of a patch and for the memory after all joins, all thread numbers of V1, both neighbour modes. Images with 256 gray values in one patch are excluded where the flood overruns its stack (C08)."
  },
  {
   "property": "C31",
   "status": "partial",
   "theorems": [
    "Verif.Props.C31_partial",
    "Verif.Props.C31_two_partial",
    "Verif.Props.C31_large_partial",
    "Verif.Props.C31_prefix_partial",
    "Verif.Props.C31_false"
   ],
   "note": "Violated by the code for 4, 8, 16 and 32 threads: when the regions left over are together smaller than the remainder of the division, they are assigned to no thread. Proved for two threads, and for all when every region has at least as many points as that remainder; what is extracted is always extracted once and to the right place."
  },
  {
   "property": "C32",
   "status": "proved",
   "theorems": [
    "Verif.Props.C32_history",
    "Verif.Props.C32_address_not_in_use",
    "Verif.Props.C32_recycled_bounded",
    "Verif.Props.C32_append_read",
    "Verif.Props.C32_visitor"
   ],
   "note": "Exponents 1 to 30 (0 also with use_new; the rest of exponent 0 is C47). The function in_block, which nothing calls, is not modelled."
  },
  {
   "property": "C33",
   "status": "partial",
   "theorems": [
    "Verif.Props.C33_masked_partial",
    "Verif.Props.C33_false"
   ],
   "note": "Violated by the code: 1 << 2000 is undefined. On machines that take the amount modulo 32 it acts as exponent 16 and C32 holds."
  },
  {
   "property": "C34",
   "status": "proved",
   "theorems": [
    "Verif.Props.C34_prefix_sums"
   ],
   "note": "The result vector has one more entry than the source, as the callers provide it; accesses outside are the outcome none."
  },
  {
   "property": "C35",
   "status": "proved",
   "theorems": [
    "Verif.Props.C35_smallest",
    "Verif.Props.C35_any_order"
   ],
   "note": "Integer coordinates without overflow; appended rectangles have sides of at least 1 (empty ones are C56)."
  },
  {
   "property": "C36",
   "status": "partial",
   "theorems": [
    "Verif.Props.C36_repaired_partial",
    "Verif.Props.C36_false",
    "Verif.Props.C36_index_false",
    "Verif.Props.C36_mask_image_false"
   ],
   "note": "Violated by the code: ptr(1,1) means row 1, channel 1, so the scan starts with a byte never written; the point index is never initialised; with a mask image the last row of flags is never written. With the first two repaired, proved for whole images, rectangles and background values, any number of channels, including the rectangles of the components."
  },
  {
   "property": "C37",
   "status": "partial",
   "theorems": [
    "Verif.Props.C37_dark_partial",
    "Verif.Props.C37_bright_partial",
    "Verif.Props.C37_innermost",
    "Verif.Props.C37_bright_false",
    "Verif.Props.C37_bright_level_false",
    "Verif.Props.C37_dark_255_false"
   ],
   "note": "Violated by the code: the bright branch writes the level of the dark region with the same index (or reads outside the vector), and dark regions of level 255 are not shown. Proved for dark regions below 255 and for bright regions whose level happens to equal that of the dark region with the same index."
  },
  {
   "property": "C38",
   "status": "partial",
   "theorems": [
    "Verif.Props.C38_careful_partial",
    "Verif.Props.C38_false",
    "Verif.Props.C38_destroy_false",
    "Verif.Props.C38_assign_false"
   ],
   "note": "Violated by the code for results with common memory: the regions of a copy point into the memory of the original, destroying a copy frees memory from new[], assigning deletes memory from malloc. Proved for all histories in which such results are only read and destroyed (results whose regions own their points may be copied and assigned in any way)."
  },
  {
   "property": "C39",
   "status": "proved",
   "theorems": [
    "Verif.Props.C39_heap_sort",
    "Verif.Props.C39_bubble_sort"
   ],
   "note": ""
  },
  {
   "property": "C40",
   "status": "proved",
   "theorems": [
    "Verif.Props.C40_top_k",
    "Verif.Props.C40_unique"
   ],
   "note": ""
  },
  {
   "property": "C41",
   "status": "proved",
   "theorems": [
    "Verif.Props.C41_max_sum"
   ],
   "note": "Sums are not bounded to 32 bits."
  },
  {
   "property": "C42",
   "status": "partial",
   "theorems": [
    "Verif.Props.C42_longer_partial",
    "Verif.Props.C42_false",
    "Verif.Props.C42_single_wrong"
   ],
   "note": "Violated by the code: a match of the first element of the second list is not counted as a run of one element. Runs of two or more elements are always found."
  },
  {
   "property": "C43",
   "status": "proved",
   "theorems": [
    "Verif.Props.C43_knapsack"
   ],
   "note": ""
  },
  {
   "property": "C44",
   "status": "partial",
   "theorems": [
    "Verif.Props.C44_flat_index_partial",
    "Verif.Props.C44_false",
    "Verif.Props.C44_wrong_value"
   ],
   "note": "Violated by the code: the conversion to a multi-index reads one size too many, for every shape. The conversion to a flat index is a bijection."
  },
  {
   "property": "C45",
   "status": "proved",
   "theorems": [
    "Verif.Props.C45_reverse",
    "Verif.Props.C45_ones"
   ],
   "note": ""
  },
  {
   "property": "C46",
   "status": "partial",
   "theorems": [
    "Verif.Props.C46_bright_only_partial",
    "Verif.Props.C46_bright_only_overruns_heap",
    "Verif.Props.C46_bright_only_false"
   ],
   "note": "Violated by the code: with dark extraction disabled the histogram is taken over raw gray values while the flood uses inverted ones. Every all-black image of at least 2x2 pixels writes behind the heap array. Holds for images with a symmetric histogram."
  },
  {
   "property": "C47",
   "status": "partial",
   "theorems": [
    "Verif.Props.C47_exponents_partial",
    "Verif.Props.C47_false"
   ],
   "note": "Violated by the code for exponent 0: init takes the reuse branch and calls front() of an empty vector."
  },
  {
   "property": "C48",
   "status": "partial",
   "theorems": [
    "Verif.Props.C48_half_partial",
    "Verif.Props.C48_false"
   ],
   "note": "Violated by the code: the inner loop ends too early, so the second half stays as it was ([1,3,2] is not sorted). The result is a rearrangement, the indexes match, and the first half plus one element is sorted."
  },
  {
   "property": "C49",
   "status": "partial",
   "theorems": [
    "Verif.Props.C49_in_range_partial",
    "Verif.Props.C49_false",
    "Verif.Props.C49_false_fitting"
   ],
   "note": "Violated by the code: flagged items may be too heavy. No access out of range happens."
  },
  {
   "property": "C50",
   "status": "partial",
   "theorems": [
    "Verif.Props.C50_ends_partial",
    "Verif.Props.C50_false"
   ],
   "note": "Violated by the code: ends of runs are listed instead of begins."
  },
  {
   "property": "C51",
   "status": "partial",
   "theorems": [
    "Verif.Props.C51_small_partial",
    "Verif.Props.C51_false"
   ],
   "note": "Violated by the code from four elements on. The result is a rearrangement; up to three elements are reversed."
  },
  {
   "property": "C52",
   "status": "partial",
   "theorems": [
    "Verif.Props.C52_nonneg_partial",
    "Verif.Props.C52_false"
   ],
   "note": "Violated by the code for negative odd numbers. Proved for nonnegative numbers."
  },
  {
   "property": "C53",
   "status": "partial",
   "theorems": [
    "Verif.Props.C53_same_size_partial",
    "Verif.Props.C53_false"
   ],
   "note": "Violated by the code: the result is not resized. Proved for a result of the right size."
  },
  {
   "property": "C54",
   "status": "proved",
   "theorems": [
    "Verif.Props.C54_extreme"
   ],
   "note": ""
  },
  {
   "property": "C55",
   "status": "partial",
   "theorems": [
    "Verif.Props.C55_small_partial",
    "Verif.Props.C55_false"
   ],
   "note": "Violated by the code: for n >= 13 a factorial overflows, whatever k. Proved for n <= 12."
  },
  {
   "property": "C56",
   "status": "partial",
   "theorems": [
    "Verif.Props.C56_inside_partial",
    "Verif.Props.C56_false"
   ],
   "note": "Violated by the code: the corner of the empty rectangle is included."
  },
  {
   "property": "C57",
   "status": "proved",
   "theorems": [
    "Verif.Props.C57_expand",
    "Verif.Props.C57_shrink"
   ],
   "note": "Integer coordinates without overflow."
  },
  {
   "property": "C58",
   "status": "partial",
   "theorems": [
    "Verif.Props.C58_partial",
    "Verif.Props.C58_false"
   ],
   "note": "Violated by the code for images at most two pixels wide and at least three high: nothing is allocated and the border is written. Proved for all other sizes."
  },
  {
   "property": "C59",
   "status": "partial",
   "theorems": [
    "Verif.Props.C59_own_partial",
    "Verif.Props.C59_false",
    "Verif.Props.C59_shared_false"
   ],
   "note": "Violated by the code for results with common memory: extract starts with an assignment that applies delete[] to memory from malloc. Proved for the algorithms whose regions own their points."
  },
  {
   "property": "C60",
   "status": "partial",
   "theorems": [
    "Verif.Props.C60_careful_partial",
    "Verif.Props.C60_region_false",
    "Verif.Props.C60_false"
   ],
   "note": "Violated by the code: assigning a region in common memory to one that owns its points loses them; destroying a copy of a result with common memory is undefined. Proved for all histories in which results with common memory are only read and destroyed."
  },
  {
   "property": "C61",
   "status": "proved",
   "theorems": [
    "Verif.Props.C61_flood_builds_component_tree",
    "Verif.Props.C61_exact_step_count"
   ],
   "note": "One patch, 4- and 8-neighbour mode, all images with fewer than 256 gray values (with 256 the component stack can overrun as in C08)."
  },
  {
   "property": "C62",
   "status": "proved",
   "theorems": [
    "Verif.Props.C62_bounding_box_is_tight",
    "Verif.Props.C62_tight_after_joining"
   ],
   "note": "After flooding one patch, and after joining all patches."
  },
  {
   "property": "C63",
   "status": "proved",
   "theorems": [
    "Verif.Props.C63_joined_sides_recorded"
   ],
   "note": "One patch after flooding."
  },
  {
   "property": "C64",
   "status": "proved",
   "theorems": [
    "Verif.Props.C64_all_patches_end",
    "Verif.Props.C64_tree_of_whole_image",
    "Verif.Props.C64_same_for_all_thread_numbers",
    "Verif.Props.C64_same_as_v2",
    "Verif.Props.C64_bright_same_as_v2"
   ],
   "note": "All thread numbers of V1. Runs on which the component stack overflows (as C08) are excluded."
  },
  {
   "property": "C65",
   "status": "partial",
   "theorems": [
    "Verif.Props.C65_eight_mode_partial",
    "Verif.Props.C65_corner_bridge_lost"
   ],
   "note": "Violated by the code: across patch borders only 4-adjacent pixels are joined. Proved for one thread; for several threads the tree is the one of 8-adjacency inside patches and 4-adjacency across borders."
  },
  {
   "property": "C66",
   "status": "partial",
   "theorems": [
    "Verif.Props.C66_large_enough_partial",
    "Verif.Props.C66_small_image_divides_by_zero"
   ],
   "note": "Violated by the code: with 8, 16 or 32 threads an image with fewer rows or columns than the patch grid causes a division by zero. Proved for images with at least one row and column per patch."
  },
  {
   "property": "C67",
   "status": "partial",
   "theorems": [
    "Verif.Props.C67_recognition_v1_partial",
    "Verif.Props.C67_region_reported_twice"
   ],
   "note": "Violated by the code for large duplicate thresholds: with threshold 2 a region is reported twice. Proved for thresholds below 3/5 (the default is 0.1), all thread numbers and both neighbour modes."
  },
  {
   "property": "C68",
   "status": "partial",
   "theorems": [
    "Verif.Props.C68_records_partial",
    "Verif.Props.C68_threads_disjoint",
    "Verif.Props.C68_small_regions_lost"
   ],
   "note": "Violated by the code: from an image with seven isolated dots four threads extract only five, the other records point before the array. Proved for two threads, and for more if the minimal region size is at least the thread number minus one; duplicate thresholds below 3/5 as in C67."
  },
  {
   "property": "C69",
   "status": "partial",
   "theorems": [
    "Verif.Props.C69_one_thread_partial",
    "Verif.Props.C69_unreadable"
   ],
   "note": "Violated by the code: two indices are stored in place of the pointer and the rectangle is not set, so no record can be read. Proved: the indices delimit exactly the pixels of the region; size and gray level are right."
  },
  {
   "property": "C70",
   "status": "partial",
   "theorems": [
    "Verif.Props.C70_threads_irrelevant_partial",
    "Verif.Props.C70_threads_matter"
   ],
   "note": "Violated by the code for large duplicate thresholds: with threshold 2 an 8x4 image gives different regions with 4 and with 32 threads. Proved for thresholds below 2/5 (the default is 0.1), all thread numbers of V2 and V1."
  },
  {
   "property": "C71",
   "status": "proved",
   "theorems": [
    "Verif.Props.C71_linear_flood",
    "Verif.Props.C71_exact_step_count",
    "Verif.Props.C71_sublists"
   ],
   "note": "All image sizes, both neighbour modes, both gray directions. The detector works on packed 16/32 bit words; the proof decodes them."
  },
  {
   "property": "C72",
   "status": "partial",
   "theorems": [
    "Verif.Props.C72_mask_image_partial",
    "Verif.Props.C72_mask_value_bright_partial",
    "Verif.Props.C72_rect_ignored",
    "Verif.Props.C72_value_ignored_dark"
   ],
   "note": "Violated by the code: a mask rectangle has no effect, nor has a mask value in the dark pass. Proved for mask images and for a mask value in the bright pass."
  },
  {
   "property": "C73",
   "status": "proved",
   "theorems": [
    "Verif.Props.C73_stale_buffers"
   ],
   "note": "For buffers with arbitrary contents whose first heap top is at the heap base, as allocate_memory leaves it and as every pass leaves it again."
  },
  {
   "property": "C74",
   "status": "proved",
   "theorems": [
    "Verif.Props.C74_recognition_linear",
    "Verif.Props.C74_recognition_linear_no_delta"
   ],
   "note": "All image sizes below 2^31 pixels, both neighbour modes, both gray directions, every configuration (stability threshold at least -1 for the first theorem). Masked images: C78."
  },
  {
   "property": "C75",
   "status": "proved",
   "theorems": [
    "Verif.Props.C75_linear_extraction"
   ],
   "note": "Any mask and configuration. Images of 2^23 pixels or more are outside the statement: the number of points is an i32 and every pixel may be delivered up to 256 times."
  },
  {
   "property": "C76",
   "status": "partial",
   "theorems": [
    "Verif.Props.C76_linear_records_partial",
    "Verif.Props.C76_reports_differ"
   ],
   "note": "Proved for duplicate thresholds below 2/5; violated for large ones (threshold 2), where V2 does not even agree with itself (C70)."
  },
  {
   "property": "C77",
   "status": "partial",
   "theorems": [
    "Verif.Props.C77_mask_image_partial",
    "Verif.Props.C77_mask_value_bright_partial",
    "Verif.Props.C77_mask_value_dark_violated",
    "Verif.Props.C77_mask_rect_violated"
   ],
   "note": "Holds for mask images and for mask values in the bright pass. Violated by the code for mask values in the dark pass and for mask rectangles, which pre_process_image ignores."
  },
  {
   "property": "C78",
   "status": "partial",
   "theorems": [
    "Verif.Props.C78_masked_selection_partial",
    "Verif.Props.C78_masked_unchecked",
    "Verif.Props.C78_unstable_reported"
   ],
   "note": "Violated by the code: the root has level 256, stored in a byte as 0, so calculate_variation climbs into it and reports that no stability value is available. Proved, without suppression and duplicate removal, for regions that lie in an unmasked region more than delta levels above."
  },
  {
   "property": "C79",
   "status": "proved",
   "theorems": [
    "Verif.Props.C79_component_tree"
   ],
   "note": "Mask rectangles must lie in the image and mask images or values must leave a pixel in; otherwise the code reads outside the image. Detectors last used with another number of pixels: C80."
  },
  {
   "property": "C80",
   "status": "partial",
   "theorems": [
    "Verif.Props.C80_reuse_partial",
    "Verif.Props.C80_cleared_partial",
    "Verif.Props.C80_reuse_wrong"
   ],
   "note": "Violated by the code: if the number of unmasked pixels changes, m_regions is not cleared, and regions of the old image are delivered with the new one, along with an empty record. Proved for sequences of images with the same number of unmasked pixels, and for any sequence if clear_memory_cache is called in between."
  },
  {
   "property": "C81",
   "status": "partial",
   "theorems": [
    "Verif.Props.C81_recognition_partial",
    "Verif.Props.C81_admitted_partial"
   ],
   "note": "Duplicate thresholds below 3/5 as in C67 (the default is 0.1); for every threshold only admitted regions are delivered. Any rounding of the quotients."
  },
  {
   "property": "C82",
   "status": "proved",
   "theorems": [
    "Verif.Props.C82_records"
   ],
   "note": "Every configuration. Detector new or last used with the same number of pixels (C80)."
  },
  {
   "property": "C83",
   "status": "partial",
   "theorems": [
    "Verif.Props.C83_agrees_partial",
    "Verif.Props.C83_agrees_linear_partial",
    "Verif.Props.C83_whole_image"
   ],
   "note": "For a duplicate threshold below 2/5, delta at least 1 and a largest region size below the size of the image. C83_whole_image: beyond that size the original detector delivers the region of all pixels, V1 and V2 do not."
  },
  {
   "property": "C84",
   "status": "proved",
   "theorems": [
    "Verif.Props.C84_masked_pixels_irrelevant",
    "Verif.Props.C84_no_masked_pixel",
    "Verif.Props.C84_empty_mask"
   ],
   "note": "Masks that leave at least one pixel in; C84_empty_mask: otherwise the code has undefined behaviour."
  },
  {
   "property": "C85",
   "status": "proved",
   "theorems": [
    "Verif.Props.C85_mask_rectangle_is_crop"
   ],
   "note": "The rectangle lies in the image."
  },
  {
   "property": "C86",
   "status": "partial",
   "theorems": [
    "Verif.Props.C86_dark_partial",
    "Verif.Props.C86_bright_after_dark_partial",
    "Verif.Props.C86_regions_fit",
    "Verif.Props.C86_full_range_overruns",
    "Verif.Props.C86_bright_only_wrong",
    "Verif.Props.C86_eight_lower_rows_never_visited",
    "Verif.Props.C86_mask_reads_unwritten"
   ],
   "note": "Holds with 4 neighbours, no mask, at most 255 different gray values, at most 2^29 pixels, and for the bright pass after a dark one. False otherwise, each with a theorem: a 256-level gradient overruns the component stack; a bright pass alone works on unprepared buffers; with 8 neighbours the rows below the first are never visited; with a mask the image is not copied."
  },
  {
   "property": "C87",
   "status": "proved",
   "theorems": [
    "Verif.Props.C87_recognition_ms",
    "Verif.Props.C87_recognition_ms_no_delta"
   ],
   "note": "For the component trees of C86. Images below 2^31 pixels, stability threshold at least -1. Any rounding of the quotients."
  },
  {
   "property": "C88",
   "status": "proved",
   "theorems": [
    "Verif.Props.C88_records",
    "Verif.Props.C88_dark_partial",
    "Verif.Props.C88_bright_after_dark_partial"
   ],
   "note": "C88_records starts from the component tree of C86; the other two include flooding and need what C86 needs. Up to 2^22 pixels (the sum of all region sizes must fit an i32); with an array per record up to 2^31."
  },
  {
   "property": "C89",
   "status": "partial",
   "theorems": [
    "Verif.Props.C89_ms_agrees_partial",
    "Verif.Props.C89_reports_differ"
   ],
   "note": "For a duplicate threshold below 2/5 and delta at least 1. C89_reports_differ: false of the code for larger thresholds."
  },
  {
   "property": "C90",
   "status": "partial",
   "theorems": [
    "Verif.Props.C90_any_record_partial",
    "Verif.Props.C90_shows",
    "Verif.Props.C90_ms",
    "Verif.Props.C90_v1_list",
    "Verif.Props.C90_v1",
    "Verif.Props.C90_linear",
    "Verif.Props.C90_v2_false"
   ],
   "note": "Holds for the records of V1, the linear and the ms detector and for every record with the right rectangle. C90_v2_false: false for V2 with several threads because of the rectangles of C27. The final resize is not modelled."
  },
  {
   "property": "C91",
   "status": "proved",
   "theorems": [
    "Verif.Props.C91_chessboard",
    "Verif.Props.C91_size_zero"
   ],
   "note": "All channels of a pixel get the same value, one is modelled."
  },
  {
   "property": "C92",
   "status": "partial",
   "theorems": [
    "Verif.Props.C92_regions_partial",
    "Verif.Props.not_C92_connected"
   ],
   "note": "not_C92_connected: false of the code, a reported region of a 5x3 image is not connected. C92_regions_partial: with the right shift (C94) the points are different pixels of one component, not all of it; a whole component of a lower level whenever the history they come from has a lower level."
  },
  {
   "property": "C93",
   "status": "partial",
   "theorems": [
    "Verif.Props.C93_level_partial",
    "Verif.Props.not_C93_level",
    "Verif.Props.not_C93_polarity"
   ],
   "note": "Both false of the code: the level is that of the next larger component and subtracted from 255; m_msers[0] gets the bright regions. C93_level_partial says what is reported instead."
  },
  {
   "property": "C94",
   "status": "partial",
   "theorems": [
    "Verif.Props.C94_coordinates_partial",
    "Verif.Props.not_C94_row",
    "Verif.Props.not_C94_inside"
   ],
   "note": "m_step_gap is never assigned. not_C94_row: every value but one gives wrong rows; not_C94_inside: points outside of the image. C94_coordinates_partial: right with the right value; the column always."
  },
  {
   "property": "C95",
   "status": "partial",
   "theorems": [
    "Verif.Props.C95_ends_partial",
    "Verif.Props.C95_cells",
    "Verif.Props.not_C95_ends"
   ],
   "note": "For a shift below 32; not_C95_ends: m_step_gap is never assigned, with 32 or more the shift is undefined."
  },
  {
   "property": "C96",
   "status": "proved",
   "theorems": [
    "Verif.Props.C96_reuse"
   ],
   "note": "For a shift below 32 (otherwise the pass is undefined, C95)."
  },
  {
   "property": "C97",
   "status": "partial",
   "theorems": [
    "Verif.Props.C97_sub_partial",
    "Verif.Props.C97_rect_partial",
    "Verif.Props.C97_range_partial",
    "Verif.Props.C97_row_col_partial",
    "Verif.Props.not_C97_sub",
    "Verif.Props.not_C97_back",
    "Verif.Props.not_C97_five",
    "Verif.Props.matView_inside",
    "Verif.Props.matView_apart"
   ],
   "note": "Holds for starts of at least 0 (and up to 4 dimensions for sub(range, dim) and what uses it). False otherwise: not_C97_sub, not_C97_back: a negative start, and back of more than there is, is not noticed; not_C97_five: with more than four dimensions a freed array is read."
  },
  {
   "property": "C98",
   "status": "partial",
   "theorems": [
    "Verif.Props.C98_plane_partial",
    "Verif.Props.not_C98_plane"
   ],
   "note": "False of the code: plane cuts the last dimension. C98_plane_partial says what it shows, and that index(p, 0) is the picture."
  },
  {
   "property": "C99",
   "status": "partial",
   "theorems": [
    "Verif.Props.C99_flip",
    "Verif.Props.C99_twice",
    "Verif.Props.C99_flags",
    "Verif.Props.C99_list_partial",
    "Verif.Props.not_C99_list"
   ],
   "note": "flip(dim), flip(flags) and flip_all always; flip(size, dims) only when size is the number of dimensions: not_C99_list, flags are left uninitialised."
  },
  {
   "property": "C100",
   "status": "proved",
   "theorems": [
    "Verif.Props.C100_swap",
    "Verif.Props.C100_transpose"
   ],
   "note": ""
  },
  {
   "property": "C101",
   "status": "proved",
   "theorems": [
    "Verif.Props.C101_channels",
    "Verif.Props.C101_last"
   ],
   "note": "last_dim_as_channel needs a last step of one element, which channel_as_last_dim gives."
  },
  {
   "property": "C102",
   "status": "proved",
   "theorems": [
    "Verif.Props.C102_create"
   ],
   "note": "Any integer sizes of at least 0."
  },
  {
   "property": "C103",
   "status": "partial",
   "theorems": [
    "Verif.Props.C103_continuous_partial",
    "Verif.Props.not_C103_continuous"
   ],
   "note": "Arrays called continuous have no gaps; the converse for sizes of at least 2. False for sizes of 1: not_C103_continuous, a row of a picture is not called continuous."
  },
  {
   "property": "C104",
   "status": "proved",
   "theorems": [
    "Verif.Props.C104_lowest",
    "Verif.Props.C104_block"
   ],
   "note": ""
  },
  {
   "property": "C105",
   "status": "partial",
   "theorems": [
    "Verif.Props.C105_iterator_partial",
    "Verif.Props.C105_order",
    "Verif.Props.not_C105_empty"
   ],
   "note": "For sizes of at least 1; not_C105_empty: for an array with a size of 0 the iterator never ends."
  },
  {
   "property": "C106",
   "status": "partial",
   "theorems": [
    "Verif.Props.C106_copy_partial",
    "Verif.Props.not_C106_convert"
   ],
   "note": "For equal element types, with the last step a whole number of units. False for different types: not_C106_convert, the source is read with the type of the destination."
  },
  {
   "property": "C107",
   "status": "proved",
   "theorems": [
    "Verif.Props.C107_clone"
   ],
   "note": "For sizes of at least 1 and a last step of whole units, as all operations of the library give."
  },
  {
   "property": "C108",
   "status": "partial",
   "theorems": [
    "Verif.Props.C108_fill_partial",
    "Verif.Props.not_C108_three",
    "Verif.Props.not_C108_negative",
    "Verif.Props.not_C108_scalar"
   ],
   "note": "Integer values. False: not_C108_three, three dimensions with gaps and more than four channels write outside; not_C108_negative, i8 below 0 goes through a conversion to u8; not_C108_scalar, a scalar has four values for any number of channels."
  },
  {
   "property": "C109",
   "status": "partial",
   "theorems": [
    "Verif.Props.C109_zero_partial",
    "Verif.Props.not_C109_zero"
   ],
   "note": "For types of one byte. False otherwise: only as many bytes as channels are looked at."
  },
  {
   "property": "C110",
   "status": "partial",
   "theorems": [
    "Verif.Props.C110_equal_partial",
    "Verif.Props.not_C110_three",
    "Verif.Props.not_C110_four",
    "Verif.Props.not_C110_dims"
   ],
   "note": "Up to two dimensions, or both continuous, or more than four dimensions with a tight last one. False: not_C110_three (only first rows compared), not_C110_four (nothing compared), not_C110_dims (numbers of dimensions not compared)."
  },
  {
   "property": "C111",
   "status": "partial",
   "theorems": [
    "Verif.Props.C111_reshape_partial",
    "Verif.Props.C111_channel_partial",
    "Verif.Props.not_C111_reshape"
   ],
   "note": "For arrays that are not flipped; not_C111_reshape: a flipped one passes the check and the result leaves the memory."
  },
  {
   "property": "C112",
   "status": "partial",
   "theorems": [
    "Verif.Props.C112_split",
    "Verif.Props.C112_increase",
    "Verif.Props.C112_combine_partial",
    "Verif.Props.C112_decrease_partial",
    "Verif.Props.not_C112_combine",
    "Verif.Props.not_C112_decrease"
   ],
   "note": "split_dim and increase_dim always; combine_dim unless the steps are in order with gaps (not_C112_combine); decrease_dim for the first dimension (not_C112_decrease: a column becomes part of a row)."
  },
  {
   "property": "C113",
   "status": "partial",
   "theorems": [
    "Verif.Props.C113_index_partial",
    "Verif.Props.C113_created",
    "Verif.Props.C113_parts",
    "Verif.Props.not_C113_index"
   ],
   "note": "For arrays whose steps are nested (each step exceeds the reach of all smaller ones), which is shown for new arrays and for all arrays with the same steps up to sign and sizes not larger (parts, flips). False: not_C113_index, a transposed column vector has two equal steps."
  },
  {
   "property": "C114",
   "status": "proved",
   "theorems": [
    "Verif.Props.C114_repeat",
    "Verif.Props.positions_eq"
   ],
   "note": "All arrays with sizes, channels and repetitions of at least 1."
  },
  {
   "property": "C115",
   "status": "partial",
   "theorems": [
    "Verif.Props.C115_channels",
    "Verif.Props.C115_dim_partial",
    "Verif.Props.not_C115_dim"
   ],
   "note": "Channels always; a dimension if all elements have the same size in it and there are at most four dimensions. False: not_C115_dim, the size of the first element is used for all of them, and memory behind the new array is written."
  },
  {
   "property": "C116",
   "status": "partial",
   "theorems": [
    "Verif.Props.C116_split_partial",
    "Verif.Props.pieces_unique",
    "Verif.Props.not_C116_long",
    "Verif.Props.not_C116_empty"
   ],
   "note": "For tags of one character. False: not_C116_long (only one character is skipped behind a tag), not_C116_empty (an empty tag does not give the text)."
  },
  {
   "property": "C117",
   "status": "partial",
   "theorems": [
    "Verif.Props.C117_replace_partial",
    "Verif.Props.not_C117_replace"
   ],
   "note": "If the text to be replaced is not empty; not_C117_replace: otherwise it never ends."
  },
  {
   "property": "C118",
   "status": "proved",
   "theorems": [
    "Verif.Props.C118_trim"
   ],
   "note": "All texts and characters."
  },
  {
   "property": "C119",
   "status": "partial",
   "theorems": [
    "Verif.Props.C119_distance_partial",
    "Verif.Props.not_C119_price",
    "Verif.Props.not_C119_empty",
    "Verif.Props.not_C119_long"
   ],
   "note": "If insertion and deletion have the same price or the second word is not longer, an empty word only with price 1, and the values fit the table entries. False otherwise, three witnesses."
  },
  {
   "property": "C120",
   "status": "partial",
   "theorems": [
    "Verif.Props.C120_name",
    "Verif.Props.C120_plain",
    "Verif.Props.C120_path_partial",
    "Verif.Props.not_C120_path"
   ],
   "note": "File name always; together with the folder if there is a separator (not_C120_path: without one the folder path is the name)."
  },
  {
   "property": "C121",
   "status": "partial",
   "theorems": [
    "Verif.Props.C121_dir_partial",
    "Verif.Props.C121_title_partial",
    "Verif.Props.not_C121_title"
   ],
   "note": "If no separator follows the last dot; not_C121_title: the extension is looked for in the whole path."
  },
  {
   "property": "C122",
   "status": "proved",
   "theorems": [
    "Verif.Props.C122_type"
   ],
   "note": "All eleven depths, 1 to 32768 channels."
  },
  {
   "property": "C123",
   "status": "partial",
   "theorems": [
    "Verif.Props.C123_conv_partial",
    "Verif.Props.not_C123_conv"
   ],
   "note": "If the kernel fits at least once; not_C123_conv: otherwise the result may be 1."
  },
  {
   "property": "C124",
   "status": "proved",
   "theorems": [
    "Verif.Props.C124_pool",
    "Verif.Props.C124_unique"
   ],
   "note": "All sizes, windows and strides of at least 1."
  },
  {
   "property": "C125",
   "status": "partial",
   "theorems": [
    "Verif.Props.C125_json_partial",
    "Verif.Props.C125_named",
    "Verif.Props.not_C125_flag",
    "Verif.Props.not_C125_bracket"
   ],
   "note": "For names and texts that are not brackets and contain no zero byte, below two gigabytes, and a reader whose flag m_loaded happens to be false: no constructor sets it (not_C125_flag). not_C125_bracket: the text [ is taken for a group."
  },
  {
   "property": "C126",
   "status": "partial",
   "theorems": [
    "Verif.Props.C126_number_partial",
    "Verif.Props.not_C126_unsigned",
    "Verif.Props.not_C126_wide"
   ],
   "note": "For values that the signed type of the size can hold, up to 2^53. False: not_C126_unsigned (u8 200, undefined cast), not_C126_wide (i64 2^53+1)."
  },
  {
   "property": "C127",
   "status": "partial",
   "theorems": [
    "Verif.Props.C127_component_tree_partial",
    "Verif.Props.not_C127_inside"
   ],
   "note": "With the two conditions in the search for the next level exchanged. As written (not_C127_inside) every call on an image of two or more pixels reads boundaryPixels[256], one past the end."
  },
  {
   "property": "C128",
   "status": "partial",
   "theorems": [
    "Verif.Props.C128_reuse_partial"
   ],
   "note": "With the conditions exchanged as in C127; any contents of the pool."
  },
  {
   "property": "C129",
   "status": "partial",
   "theorems": [
    "Verif.Props.C129_dark_partial",
    "Verif.Props.C129_bright_partial",
    "Verif.Props.not_C129_small",
    "Verif.Props.not_C129_bright_only"
   ],
   "note": "For images of at least 3x3 pixels: the dark pass on any buffers, and the bright pass after the dark pass. False for images of one row (not_C129_small) and, when only bright regions are searched, for the image of not_C129_bright_only: the stacks are laid out for the values before inversion, and updateTree calls itself without end."
  },
  {
   "property": "C130",
   "status": "partial",
   "theorems": [
    "Verif.Props.C130_regions_partial",
    "Verif.Props.C130_once_partial",
    "Verif.Props.not_C130_bright_only",
    "Verif.Props.not_C130_border"
   ],
   "note": "With the inner pixels as the image, for the dark pass and the bright pass after it. False: border pixels are never looked at (not_C130_border); when only bright regions are searched a reported region can be no component at all (not_C130_bright_only)."
  },
  {
   "property": "C131",
   "status": "partial",
   "theorems": [
    "Verif.Props.C131_variation_partial"
   ],
   "note": "With the inner pixels as the image, for the dark pass and the bright pass after it. The comparison with the variations of neighbouring levels (nms) is modelled and not part of the statement."
  },
  {
   "property": "C132",
   "status": "partial",
   "theorems": [
    "Verif.Props.C132_zero_partial",
    "Verif.Props.not_C132_level"
   ],
   "note": "The level is never assigned: 0 is reported, which is wrong (not_C132_level)."
  },
  {
   "property": "C133",
   "status": "partial",
   "theorems": [
    "Verif.Props.C133_dark_partial",
    "Verif.Props.C133_only_partial",
    "Verif.Props.C133_bright_partial",
    "Verif.Props.not_C133_unwritten"
   ],
   "note": "Every pass ends inside of its buffers for any value of unwritten memory. False: the height of pixel 0 is compared instead of the height of the root and can be read before it was written (not_C133_unwritten)."
  },
  {
   "property": "C134",
   "status": "partial",
   "theorems": [
    "Verif.Props.C134_regions_partial",
    "Verif.Props.not_C134_two_columns"
   ],
   "note": "For 8 neighbours all widths, for 4 neighbours all widths but 2. False for width 2 and 4 neighbours: diagonal pixels are joined (not_C134_two_columns)."
  },
  {
   "property": "C135",
   "status": "partial",
   "theorems": [
    "Verif.Props.C135_report_partial",
    "Verif.Props.C135_unique",
    "Verif.Props.C135_limit_partial",
    "Verif.Props.not_C135_rounded"
   ],
   "note": "With the limits of the size as rounded by the code; width not 2 for 4 neighbours. False: the smallest size is divided by and multiplied with the number of pixels in f32, so a region with exactly min_point pixels can be dropped (not_C135_rounded)."
  },
  {
   "property": "C136",
   "status": "partial",
   "theorems": [
    "Verif.Props.C136_duplicates_partial",
    "Verif.Props.not_C136_root"
   ],
   "note": "The first half. False: a region is also removed as a duplicate of the region of all pixels when that is not reported (not_C136_root)."
  },
  {
   "property": "C137",
   "status": "partial",
   "theorems": [
    "Verif.Props.C137_same_partial"
   ],
   "note": "As multisets of gray level and size; width not 2 for 4 neighbours."
  },
  {
   "property": "C138",
   "status": "partial",
   "theorems": [
    "Verif.Props.C138_edges_partial",
    "Verif.Props.C138_eleven",
    "Verif.Props.not_C138_wide"
   ],
   "note": "Components of the gradient at most 27145 and 65535 (products in i32), and at most 1023 columns or at least 11 rows (the condition is cols + 1 <= max(1024, rows*cols/10)). False beyond: the stack grows only by a half for each row, so one row of 4000 columns writes behind it (not_C138_wide)."
  },
  {
   "property": "C139",
   "status": "partial",
   "theorems": [
    "Verif.Props.C139_thresholds_partial"
   ],
   "note": "Under the conditions of C138."
  },
  {
   "property": "C140",
   "status": "partial",
   "theorems": [
    "Verif.Props.C140_reuse_partial"
   ],
   "note": "Under the conditions of C138."
  },
  {
   "property": "C141",
   "status": "partial",
   "theorems": [
    "Verif.Props.C141_inverted_partial"
   ],
   "note": "Under the conditions of C138."
  },
  {
   "property": "C142",
   "status": "partial",
   "theorems": [
    "Verif.Props.C142_small_edges_partial",
    "Verif.Props.not_C142_border"
   ],
   "note": "For edges that do not touch the border of the image. False at the border: the collection does not go on from a border pixel, so an edge of five pixels is taken for one of three, and these are removed (not_C142_border)."
  },
  {
   "property": "C143",
   "status": "proved",
   "theorems": [
    "Verif.Props.C143_followed",
    "Verif.Props.C143_one_threshold"
   ],
   "note": "Magnitudes and thresholds are only compared and stand for f32; with one low threshold the edge image is exactly what is followed."
  },
  {
   "property": "C144",
   "status": "partial",
   "theorems": [
    "Verif.Props.C144_mean_partial",
    "Verif.Props.not_C144_seven",
    "Verif.Props.not_C144_small"
   ],
   "note": "Windows of at least 4 pixels with s % 4 <= s / 4 (every multiple of 4), exact arithmetic in place of f32. False for windows of 7 pixels, which leave the image, and below 4, where the step is 0."
  },
  {
   "property": "C145",
   "status": "partial",
   "theorems": [
    "Verif.Props.C145_cell_partial",
    "Verif.Props.not_C145_flat"
   ],
   "note": "The image has at least a fourth of the window size as rows and columns. False below: with windows of 16 pixels and three rows there are no cells and the threshold is read at row -1."
  },
  {
   "property": "C146",
   "status": "proved",
   "theorems": [
    "Verif.Props.C146_stroke",
    "Verif.Props.C146_at_most"
   ],
   "note": "The rays are an input; nth_element is taken by its contract (the value at that index of the sorted values)."
  },
  {
   "property": "C147",
   "status": "proved",
   "theorems": [
    "Verif.Props.C147_order"
   ],
   "note": ""
  },
  {
   "property": "C148",
   "status": "partial",
   "theorems": [
    "Verif.Props.C148_normalize_partial",
    "Verif.Props.not_C148_wide",
    "Verif.Props.not_C148_same"
   ],
   "note": "Positive widths that differ by less than 200. False beyond: the largest width becomes 255 like invalid pixels (not_C148_wide), and beyond 255 different widths become the same byte (not_C148_same)."
  },
  {
   "property": "C149",
   "status": "partial",
   "theorems": [
    "Verif.Props.C149_write_partial",
    "Verif.Props.not_C149_negative"
   ],
   "note": "Positions that are not negative. False below: a seek may leave a negative position, and the write goes before the buffer."
  },
  {
   "property": "C150",
   "status": "proved",
   "theorems": [
    "Verif.Props.C150_round_trip"
   ],
   "note": "Memory order lowest byte first; floating-point values are their bytes."
  },
  {
   "property": "C151",
   "status": "partial",
   "theorems": [
    "Verif.Props.C151_read_partial",
    "Verif.Props.not_C151_negative"
   ],
   "note": "Positions that are not negative. False below: the remaining size exceeds the buffer and bytes before it are read."
  },
  {
   "property": "C152",
   "status": "partial",
   "theorems": [
    "Verif.Props.C152_string_partial",
    "Verif.Props.not_C152_zero"
   ],
   "note": "Strings without the character 0. False otherwise: the rest of the string is lost."
  },
  {
   "property": "C153",
   "status": "partial",
   "theorems": [
    "Verif.Props.C153_text_partial",
    "Verif.Props.not_C153_gap"
   ],
   "note": "Positions in the text or at its end. False beyond: the text is appended without the gap while the position moves on from where it was."
  },
  {
   "property": "C154",
   "status": "partial",
   "theorems": [
    "Verif.Props.C154_char_partial",
    "Verif.Props.not_C154_moves",
    "Verif.Props.not_C154_line"
   ],
   "note": "The character is the right one. The position does not move (the statement comes after the return), and read_line never ends while text remains."
  },
  {
   "property": "C155",
   "status": "partial",
   "theorems": [
    "Verif.Props.C155_add_five_partial",
    "Verif.Props.C155_defined",
    "Verif.Props.not_C155_overflow"
   ],
   "note": "When the largest result fits into i32, as for all numbers of up to eight digits. False otherwise: the conversions are undefined."
  },
  {
   "property": "C156",
   "status": "proved",
   "theorems": [
    "Verif.Props.C156_least",
    "Verif.Props.not_C156_last"
   ],
   "note": "Characters below 128. The name of the function promises the last text in the order; not_C156_last shows that it is not that one."
  },
  {
   "property": "C157",
   "status": "partial",
   "theorems": [
    "Verif.Props.C157_count_partial",
    "Verif.Props.not_C157_large",
    "Verif.Props.not_C157_end"
   ],
   "note": "Arguments below 2^31. False above: the digits of the larger numbers are not counted, and for the largest argument the loop never ends."
  },
  {
   "property": "C158",
   "status": "partial",
   "theorems": [
    "Verif.Props.C158_range_partial",
    "Verif.Props.C158_all_partial",
    "Verif.Props.not_C158_all",
    "Verif.Props.not_C158_rand_max"
   ],
   "note": "RAND_MAX + 1 and the number of values fit into int; every value occurs when there are at most RAND_MAX + 1. False otherwise."
  },
  {
   "property": "C159",
   "status": "partial",
   "theorems": [
    "Verif.Props.C159_equal_partial",
    "Verif.Props.C159_order_partial",
    "Verif.Props.C159_defined_partial",
    "Verif.Props.not_C159_unsigned",
    "Verif.Props.not_C159_small",
    "Verif.Props.not_C159_undefined"
   ],
   "note": "Equality for all types; order for signed types and differences that fit. False for unsigned types (never -1) and for other differences."
  },
  {
   "property": "C160",
   "status": "partial",
   "theorems": [
    "Verif.Props.C160_derivative_partial",
    "Verif.Props.C160_dual_partial",
    "Verif.Props.not_C160_sub",
    "Verif.Props.not_C160_dot",
    "Verif.Props.not_C160_div",
    "Verif.Props.not_C160_pow"
   ],
   "note": "No difference, product or quotient with the same step twice, no powers. False otherwise: x - x, x * x, x / x and squares get wrong derivatives."
  },
  {
   "property": "C161",
   "status": "proved",
   "theorems": [
    "Verif.Props.C161_empty"
   ],
   "note": "Including steps for which the value of the derivative is wrong."
  },
  {
   "property": "C162",
   "status": "partial",
   "theorems": [
    "Verif.Props.C162_sources_partial",
    "Verif.Props.not_C162_sources",
    "Verif.Props.not_C162_outside"
   ],
   "note": "One source. False for two: the inner loop takes the target with the number of the source."
  },
  {
   "property": "C163",
   "status": "partial",
   "theorems": [
    "Verif.Props.C163_log_partial",
    "Verif.Props.not_C163_log"
   ],
   "note": "Base e and the exponential function. False for other bases: multiplied by the logarithm of the base and not divided."
  },
  {
   "property": "C164",
   "status": "proved",
   "theorems": [
    "Verif.Props.C164_fresh"
   ],
   "note": "Sequences of operations from the start, for one thread."
  },
  {
   "property": "C165",
   "status": "partial",
   "theorems": [
    "Verif.Props.C165_memory_partial",
    "Verif.Props.not_C165_overflow"
   ],
   "note": "When the sums fit into i32. False otherwise: two arrays of 1 GB overflow, though the limit is of type i64."
  },
  {
   "property": "C166",
   "status": "proved",
   "theorems": [
    "Verif.Props.C166_reuse"
   ],
   "note": "Sequences of operations from the start, for one thread."
  },
  {
   "property": "C167",
   "status": "partial",
   "theorems": [
    "Verif.Props.C167_threads_partial",
    "Verif.Props.not_C167_threads"
   ],
   "note": "When a thread gives what it has found before the other searches. False otherwise: m_caches is searched without the mutex."
  },
  {
   "property": "C168",
   "status": "partial",
   "theorems": [
    "Verif.Props.C168_hist_partial",
    "Verif.Props.not_C168_zero",
    "Verif.Props.not_C168_empty"
   ],
   "note": "Positive largest number and counts given as zeros. False otherwise: a largest number that is zero or negative is in no bin; the counts are not resized."
  },
  {
   "property": "C169",
   "status": "partial",
   "theorems": [
    "Verif.Props.C169_split_partial",
    "Verif.Props.C169_rounding_partial",
    "Verif.Props.not_C169_whole",
    "Verif.Props.not_C169_cleared"
   ],
   "note": "Exact when the means of the largest numbers are whole, otherwise up to 2 (up to 1 for numbers that are not negative); the sums fit into i32. False otherwise: the right mean is a quotient of integers, and the second output is not cleared."
  },
  {
   "property": "C170",
   "status": "partial",
   "theorems": [
    "Verif.Props.C170_ships_partial",
    "Verif.Props.not_C170_rows",
    "Verif.Props.not_C170_corners"
   ],
   "note": "Nine rows, 26 columns, corners from the upper left to the lower right. False otherwise: only the first digit of a row is read; a ship given in the other order has no cells and counts as sunk."
  },
  {
   "property": "C171",
   "status": "partial",
   "theorems": [
    "Verif.Props.C171_kernel_partial",
    "Verif.Props.not_C171_zero"
   ],
   "note": "A sigma that is not zero. False for sigma 0: 0 / 0 is computed."
  },
  {
   "property": "C172",
   "status": "partial",
   "theorems": [
    "Verif.Props.C172_sizes_partial",
    "Verif.Props.not_C172_sizes"
   ],
   "note": "Both kernels of the same size. False for all different sizes: the vertical kernel is made with the width."
  },
  {
   "property": "C173",
   "status": "proved",
   "theorems": [
    "Verif.Props.C173_conv"
   ],
   "note": "one dimension, exact arithmetic; the MKL call is trusted to give element start + i*decimation of the complete convolution"
  },
  {
   "property": "C174",
   "status": "proved",
   "theorems": [
    "Verif.Props.C174_channels"
   ],
   "note": "the index arithmetic of channels for the four alignments"
  },
  {
   "property": "C175",
   "status": "proved",
   "theorems": [
    "Verif.Props.C175_best"
   ],
   "note": "two dimensions, one channel, exact arithmetic"
  },
  {
   "property": "C176",
   "status": "proved",
   "theorems": [
    "Verif.Props.C176_sum"
   ],
   "note": "two dimensions, one channel, exact arithmetic: rounding and overflow of the element type are left out"
  },
  {
   "property": "C177",
   "status": "partial",
   "theorems": [
    "Verif.Props.C177_unpool_partial",
    "Verif.Props.not_C177_unpool"
   ],
   "note": "Types mean and first value. False for max, min and index: a mask fails the assertion that the mask is empty (line 1555), and an empty mask is read; sum is unsupported in two dimensions."
  },
  {
   "property": "C178",
   "status": "proved",
   "theorems": [
    "Verif.Props.C178_horizontal"
   ],
   "note": "integer coordinates without overflow"
  },
  {
   "property": "C179",
   "status": "partial",
   "theorems": [
    "Verif.Props.C179_normalized_partial",
    "Verif.Props.not_C179_normalized"
   ],
   "note": "No size zero, or none negative. False for a negative width with height zero: the result has two rows."
  },
  {
   "property": "C180",
   "status": "partial",
   "theorems": [
    "Verif.Props.C180_angle_partial",
    "Verif.Props.not_C180_angle"
   ],
   "note": "Angles from -360 to 720 except 360; false for exactly the others."
  },
  {
   "property": "C181",
   "status": "proved",
   "theorems": [
    "Verif.Props.C181_softmax"
   ],
   "note": "real numbers"
  },
  {
   "property": "C182",
   "status": "partial",
   "theorems": [
    "Verif.Props.C182_quadratic_partial",
    "Verif.Props.not_C182_bounds",
    "Verif.Props.not_C182_first",
    "Verif.Props.not_C182_memory"
   ],
   "note": "As many dimensions as channels, zeros in the new memory, equal matching elements. False otherwise: the loop over channels runs over dimensions, the matching element is always the first, the result is not initialised."
  },
  {
   "property": "C183",
   "status": "proved",
   "theorems": [
    "Verif.Props.C183_reduce"
   ],
   "note": "one line, one channel, rational numbers; standard deviations are not modelled"
  },
  {
   "property": "C184",
   "status": "proved",
   "theorems": [
    "Verif.Props.C184_stride"
   ],
   "note": "sizes and steps as lists; overflow is not considered"
  },
  {
   "property": "C185",
   "status": "partial",
   "theorems": [
    "Verif.Props.C185_expand_partial"
   ],
   "note": "Integer depths; not for negative values of i8, where filling is undefined (C108); sides given for all dimensions."
  }
 ]
}