{"id": "C01", "title": "Flooding builds exactly the component tree of a patch", "statement": "After the tree of one image patch is built, every extremal region in it is exactly one connected component of the pixels whose gray value is at most the region's gray level: the pixels reported as belonging to the region (its own and those of its descendants) are connected to each other through pixels no brighter than the level, and no pixel outside that is adjacent and no brighter than the level is left out.", "quantifier": "for every patch width and height of at least 1, every assignment of gray values 0..255 to its pixels, and every region of the resulting tree", "why_tests_cant": "The number of images is astronomically large and the order in which pixels are visited depends on the whole image; a test exercises a handful of images and cannot show that no image makes the flood lose or steal a pixel.", "anchors": ["basicimg/src/img_fast_mser_v2.cpp: img_fast_mser_v2::make_tree_patch", "basicimg/src/img_fast_mser_v2.cpp: img_fast_mser_v2::process_tree_patch", "basicimg/src/img_fast_mser_v2.cpp: img_fast_mser_v2::init_comp", "basicimg/src/img_fast_mser_v2.cpp: img_fast_mser_v2::new_region"]}
{"id": "C02", "title": "Every threshold component of the patch appears in the tree exactly once", "statement": "For every pixel there is exactly one region of the tree that has the pixel's gray level and contains the pixel, and two pixels of the same gray value share that region exactly when they are connected through pixels no brighter than that gray value.", "quantifier": "for every patch size, every gray image, and every pair of pixels", "why_tests_cant": "Completeness over all pixels of all images is a universally quantified statement; sampling images can never exclude a missing or duplicated component.", "anchors": ["basicimg/src/img_fast_mser_v2.cpp: img_fast_mser_v2::make_tree_patch"]}
{"id": "C03", "title": "Region sizes equal pixel counts after flooding", "statement": "The size stored for each region of a patch tree equals the number of pixels of the component it stands for.", "quantifier": "for every patch size, gray image and region", "why_tests_cant": "Sizes are accumulated incrementally over a data dependent sequence of stack merges; tests check only the images they contain.", "anchors": ["basicimg/src/img_fast_mser_v2.cpp: img_fast_mser_v2::make_tree_patch", "basicimg/include/img_fast_mser_v2.h: connected_comp"]}
{"id": "C04", "title": "Building a patch tree terminates in a linear, image independent number of steps", "statement": "The flooding loop stops for every image within (number of neighbour directions + 1) elementary steps per pixel, and when the stack of open components does not overflow its array it takes exactly that many, whatever the gray values are.", "quantifier": "for every patch size and every gray image", "why_tests_cant": "Termination for all inputs cannot be observed by running finitely many inputs; a bad input could loop forever.", "anchors": ["basicimg/src/img_fast_mser_v2.cpp: img_fast_mser_v2::make_tree_patch"]}
{"id": "C05", "title": "The patch tree is a single rooted tree with strictly increasing gray levels", "statement": "Every region except one has a parent, a parent's gray level is strictly greater than its child's, a parent's size is strictly greater than its child's, and the unique root contains every pixel of the patch.", "quantifier": "for every patch size and gray image", "why_tests_cant": "A cycle or a second root would need a particular pixel arrangement; tests cannot enumerate arrangements.", "anchors": ["basicimg/src/img_fast_mser_v2.cpp: img_fast_mser_v2::make_tree_patch"]}
{"id": "C06", "title": "Boundary heap: no overflow, no underflow, no cross-level corruption", "statement": "While a patch is flooded, the pixels waiting at each gray level never exceed the number of pixels of that gray level, so the slice of the shared heap array reserved for each level (histogram count plus one sentinel) is never overrun and neither the next level's nor the next patch's slice is touched, and the scan for the next level stays inside the 257 levels.", "quantifier": "for every patch size, gray image and every moment of the flooding, in the dark pass and in the bright pass that follows it", "why_tests_cant": "It is a memory safety claim about every intermediate state for every image; tests see only final outputs for some images.", "anchors": ["basicimg/src/img_fast_mser_v2.cpp: img_fast_mser_v2::process_tree_patch", "basicimg/src/img_fast_mser_v2.cpp: img_fast_mser_v2::make_tree_patch", "basicimg/src/img_fast_mser_v2.cpp: img_fast_mser_v2::allocate_memory"]}
{"id": "C07", "title": "The heap is empty again after each pass, so a second polarity starts clean", "statement": "When the tree of a patch is complete every level's waiting list is empty and its stack pointer is back at its start, so the following pass (the other polarity, or the next image of the same size) starts from the same heap state as the first one.", "quantifier": "for every patch size and gray image", "why_tests_cant": "A leftover entry would only show for special images followed by another pass; histories of calls cannot be enumerated.", "anchors": ["basicimg/src/img_fast_mser_v2.cpp: img_fast_mser_v2::process_tree_patch", "basicimg/src/img_fast_mser_v2.cpp: img_fast_mser_v2::make_tree_patch"]}
{"id": "C08", "title": "The component stack fits its array", "statement": "The stack of open components used while flooding never needs more entries than the array that holds it.", "quantifier": "for every patch size and gray image, at every moment of the flooding", "why_tests_cant": "The overflow needs an image whose visited path steps through all 256 gray levels; ordinary test images do not, and an overflow by one entry silently corrupts the neighbouring field.", "anchors": ["basicimg/include/img_fast_mser_v2.h: parallel_info::m_comp", "basicimg/include/img_fast_mser_v1.h: parallel_info::m_comp", "basicimg/src/img_fast_mser_v2.cpp: img_fast_mser_v2::make_tree_patch"]}
{"id": "C09", "title": "Joining two trees along one pixel adjacency gives the tree of the joined graph", "statement": "If a forest describes the threshold components of a pixel graph, then connecting the regions of two pixels p and q yields a forest that describes the threshold components of the same graph with the adjacency p-q added: two pixels share a region at a level exactly when they are connected at that level in the enlarged graph.", "quantifier": "for every forest produced by flooding and earlier joins, and every pair of pixels", "why_tests_cant": "The joining walk interleaves two ancestor chains of arbitrary shape; there are unboundedly many chain shapes.", "anchors": ["basicimg/src/img_fast_mser_v2.cpp: img_fast_mser_v2::connect", "basicimg/src/img_fast_mser_v2.cpp: get_set_real_parent_for_merged"]}
{"id": "C10", "title": "Joining keeps region sizes exact", "statement": "After connecting the regions of two adjacent pixels, every live region's stored size equals the number of pixels of its component in the joined graph.", "quantifier": "for every forest with exact sizes and every pair of pixels", "why_tests_cant": "The size bookkeeping carries a pending count through the walk and must be right for every interleaving of levels; a test covers few interleavings.", "anchors": ["basicimg/src/img_fast_mser_v2.cpp: img_fast_mser_v2::connect"]}
{"id": "C11", "title": "Joining terminates within a bound that depends only on the number of gray levels", "statement": "Connecting two regions performs at most 513 iterations of its walk, whatever the trees look like.", "quantifier": "for every forest with strictly increasing gray levels along parent links and every pair of regions", "why_tests_cant": "Termination for all forests is not observable by testing.", "anchors": ["basicimg/src/img_fast_mser_v2.cpp: img_fast_mser_v2::connect"]}
{"id": "C12", "title": "Multi-threaded tree equals single-threaded tree", "statement": "The components, sizes and parent relation of the tree obtained by flooding the patches separately and joining them along all patch borders are those of the component tree of the whole image; hence they do not depend on the number of threads used.", "quantifier": "for every image size admitted by the thread number, every gray image, thread numbers 1, 4 and 32", "why_tests_cant": "Equality of two algorithms on every image is unbounded; tests compare a few images.", "anchors": ["basicimg/src/img_fast_mser_v2.cpp: img_fast_mser_v2::build_tree_parallel_4", "basicimg/src/img_fast_mser_v2.cpp: img_fast_mser_v2::build_tree_parallel_32", "basicimg/src/img_fast_mser_v2.cpp: img_fast_mser_v2::merge_tree_parallel_step"]}
{"id": "C13", "title": "Joining order does not matter", "statement": "The resulting component structure is the same for every order in which the border adjacencies are joined (in particular for any interleaving of joins on disjoint quadrants).", "quantifier": "for every list of border adjacencies and every permutation of it", "why_tests_cant": "There are factorially many orders and the actual one depends on thread scheduling.", "anchors": ["basicimg/src/img_fast_mser_v2.cpp: img_fast_mser_v2::merge_tree_parallel_4", "basicimg/src/img_fast_mser_v2.cpp: img_fast_mser_v2::merge_tree_parallel_32", "basicimg/src/img_fast_mser_v2.cpp: img_fast_mser_v2::connect"]}
{"id": "C14", "title": "Patches tile the image", "statement": "The patches into which an image is divided cover every pixel exactly once, stay inside the image, and have the remainder of an uneven division in the last row and column of patches.", "quantifier": "for every image size and every supported thread number (Fast MSER V1: 1, 2, 4, 8, 16, 32; V2: 1, 4, 32)", "why_tests_cant": "Image sizes are unbounded and remainder handling fails only for particular residues.", "anchors": ["basicimg/src/img_fast_mser_v2.cpp: img_fast_mser_v2::allocate_memory", "basicimg/src/img_fast_mser_v1.cpp: img_fast_mser_v1::allocate_memory_parallel_4"]}
{"id": "C15", "title": "Patch joins cover every cross-patch adjacency exactly", "statement": "The list of patch pairs and border rows/columns that are joined visits every pair of 4-adjacent pixels lying in different patches exactly once and nothing else.", "quantifier": "for every image size and supported thread number", "why_tests_cant": "A missing border segment would only be visible for images with a thin bridge exactly there.", "anchors": ["basicimg/src/img_fast_mser_v2.cpp: img_fast_mser_v2::merge_tree_parallel_4", "basicimg/src/img_fast_mser_v2.cpp: img_fast_mser_v2::merge_tree_parallel_32", "basicimg/src/img_fast_mser_v2.cpp: img_fast_mser_v2::merge_tree_parallel_step"]}
{"id": "C16", "title": "8-neighbour mode uses 8-neighbour connectivity", "statement": "With 8-neighbour connectivity selected, regions are the connected components under 8-adjacency.", "quantifier": "for every gray image", "why_tests_cant": "Needs a claim over all images; a single diagonal bridge across a patch corner is enough to break it.", "anchors": ["basicimg/src/img_fast_mser_v2.cpp: img_fast_mser_v2::make_tree_patch", "basicimg/src/img_fast_mser_v2.cpp: img_fast_mser_v2::allocate_memory", "basicimg/src/img_fast_mser_v2.cpp: img_fast_mser_v2::merge_tree_parallel_step"]}
{"id": "C17", "title": "Bright regions are the dark regions of the inverted image", "statement": "The pass for bright regions computes, for every image, what the pass for dark regions would compute on the image with every gray value v replaced by 255-v, including the per-level heap layout.", "quantifier": "for every patch and gray image, when dark and bright regions are both extracted (the default); bright regions alone are the subject of C46", "why_tests_cant": "The two passes use different initialisation code (reused buffers, reversed histogram); agreement must hold for every image.", "anchors": ["basicimg/src/img_fast_mser_v2.cpp: img_fast_mser_v2::process_tree_patch", "basicimg/src/img_mser_base.cpp: img_mser_base::extract"]}
{"id": "C18", "title": "Stability value of a region", "statement": "The stability value of a region is (size of its largest ancestor-or-self with level at most level+delta, minus its own size) divided by its own size, when the image has brightness beyond that level above it or an ancestor exactly at level+delta; otherwise it is marked as not available.", "quantifier": "for every region tree, delta and region", "why_tests_cant": "The walk has data dependent length and crosses absorbed regions; all tree shapes must be covered.", "anchors": ["basicimg/src/img_fast_mser_v2.cpp: img_fast_mser_v2::calculate_variation", "basicimg/src/img_fast_mser_v2.cpp: img_fast_mser_v2::recognize_mser_parallel_worker"]}
{"id": "C19", "title": "Reported regions satisfy the configured limits", "statement": "Every reported region has at least the configured minimum and at most the configured maximum number of pixels, is not the whole image's root region, and has stability value at most the configured maximum.", "quantifier": "for every region tree and every configuration", "why_tests_cant": "Later selection phases could resurrect a rejected region for some tree; all trees must be excluded.", "anchors": ["basicimg/src/img_fast_mser_v2.cpp: img_fast_mser_v2::recognize_mser_serial", "basicimg/src/img_fast_mser_v2.cpp: img_fast_mser_v2::recognize_mser_parallel", "basicimg/src/img_fast_mser_v2.cpp: img_fast_mser_v2::recognize_mser_parallel_4_acceleration"]}
{"id": "C20", "title": "Non-maximum suppression does not depend on processing order", "statement": "Which regions survive non-maximum suppression is determined by the stability values alone: a region is suppressed exactly when a child one level below has a value smaller by more than the similarity threshold, or its parent one level above has a value smaller by more than the threshold. The order in which regions are visited is irrelevant.", "quantifier": "for every region tree, threshold and visiting order", "why_tests_cant": "The visiting order depends on the thread layout; there are factorially many orders.", "anchors": ["basicimg/src/img_fast_mser_v2.cpp: img_fast_mser_v2::recognize_mser_serial", "basicimg/src/img_fast_mser_v2.cpp: img_fast_mser_v2::recognize_mser_parallel", "basicimg/src/img_fast_mser_v2.cpp: img_fast_mser_v2::recognize_mser_parallel_4_acceleration"]}
{"id": "C21", "title": "Selection agrees across thread counts", "statement": "The selection of stable regions from a given region tree before duplicate removal is the same in the 1-thread, 4-thread and 32-thread code paths.", "quantifier": "for every region tree, delta of at least 1 and configuration", "why_tests_cant": "Three separately written code paths must agree on every input.", "anchors": ["basicimg/src/img_fast_mser_v2.cpp: img_fast_mser_v2::recognize_mser_serial", "basicimg/src/img_fast_mser_v2.cpp: img_fast_mser_v2::recognize_mser_parallel", "basicimg/src/img_fast_mser_v2.cpp: img_fast_mser_v2::recognize_mser_parallel_4_acceleration"]}
{"id": "C22", "title": "Gray ordering is a stable in-bounds counting sort", "statement": "The candidate regions are written to the order array inside its allocated size, each exactly once, in nondecreasing gray level and, within a level, in creation order; therefore every region comes before all its ancestors.", "quantifier": "for every set of candidate regions", "why_tests_cant": "The counters are maintained by increments and decrements scattered over three phases; a mismatch would write out of bounds only for special trees.", "anchors": ["basicimg/src/img_fast_mser_v2.cpp: img_fast_mser_v2::recognize_mser_parallel_4_acceleration", "basicmath/include/mt_helper.h: mt_helper::integral_array"]}
{"id": "C23", "title": "Duplicate removal keeps exactly one representative per group", "statement": "Each candidate region is either kept or dropped, each group of nested near-equal regions keeps exactly one member (the middle one), a kept region is never dropped later, and the number of reported regions equals the number of kept ones.", "quantifier": "for every region tree, candidate set and duplicate threshold", "why_tests_cant": "Groups are formed greedily along ancestor chains shared by many regions; conflicts appear only for particular trees.", "anchors": ["basicimg/src/img_fast_mser_v2.cpp: img_fast_mser_v2::get_duplicated_regions", "basicimg/src/img_fast_mser_v2.cpp: img_fast_mser_v2::recognize_mser_serial"]}
{"id": "C24", "title": "Concurrent pointer shortening never changes which region is the parent", "statement": "Several threads shorten parent links over absorbed regions at the same time; whatever the interleaving, the nearest live ancestor seen from any region stays the same.", "quantifier": "for every forest, every number of threads and every interleaving of shortening steps", "why_tests_cant": "Interleavings cannot be enumerated by tests and the race is timing dependent.", "anchors": ["basicimg/src/img_fast_mser_v2.cpp: img_fast_mser_v2::recognize_mser_parallel_worker", "basicimg/src/img_fast_mser_v2.cpp: get_set_real_parent_for_merged"]}
{"id": "C25", "title": "Decoded pixels of a reported region are exactly the region's pixels", "statement": "Decoding a reported region (its four pixel ranges and, recursively, those of its stored children) yields every pixel of the region's component exactly once and no other pixel.", "quantifier": "for every image, configuration and reported region (4 threads)", "why_tests_cant": "The encoding shares and moves memory between nested regions; correctness must hold for every nesting.", "anchors": ["basicimg/src/img_fast_mser_v2.cpp: img_fast_mser_v2::extract_pixel_parallel_4_acceleration", "basicimg/src/img_mser_helper.cpp: img_mser_helper::image_from_mser"]}
{"id": "C26", "title": "Pixel extraction stays inside its buffer", "statement": "All points, headers and child tables written while extracting pixels lie inside the buffer allocated for the polarity, the areas of different regions and blocks do not overlap, and together they make up the whole buffer.", "quantifier": "for every image and configuration (4 threads)", "why_tests_cant": "Buffer sizes are computed by a separate formula from the writing loops; equality must hold for all inputs.", "anchors": ["basicimg/src/img_fast_mser_v2.cpp: img_fast_mser_v2::extract_pixel_parallel_4_acceleration"]}
{"id": "C27", "title": "The reported rectangle is the bounding box", "statement": "The rectangle reported with a region is the smallest axis-parallel rectangle containing the region's pixels.", "quantifier": "for every image and reported region", "why_tests_cant": "Fails only for regions whose parts in different patches extend each other on both sides.", "anchors": ["basicimg/src/img_fast_mser_v2.cpp: img_fast_mser_v2::extract_pixel_parallel_4_acceleration", "basicmath/include/mt_rect_t.h: mt_rect_t::adjust_by_append_rect"]}
{"id": "C28", "title": "The reported gray level is a gray value of the source image", "statement": "The gray level reported with a region is the source image's gray value at which the region was formed, for dark and for bright regions.", "quantifier": "for every image and reported region", "why_tests_cant": "Universally quantified over images and both polarities.", "anchors": ["basicimg/src/img_fast_mser_v2.cpp: img_fast_mser_v2::extract_pixel_parallel_4_acceleration", "basicimg/src/img_fast_mser_v1.cpp: img_fast_mser_v1::extract_pixel_parallel_k_fast"]}
{"id": "C29", "title": "Extraction works for every accepted thread number", "statement": "For each thread number that the algorithm accepts, pixel extraction covers all patches and only existing patches.", "quantifier": "for every accepted thread number (1, 4, 32)", "why_tests_cant": "The patch table is indexed by constants; whether all accesses are in range is a statement about every configuration, and the failure is undefined behaviour that need not show in a test.", "anchors": ["basicimg/src/img_fast_mser_v2.cpp: img_fast_mser_v2::extract_pixel", "basicimg/src/img_fast_mser_v2.cpp: img_fast_mser_v2::extract_pixel_parallel_4_acceleration"]}
{"id": "C30", "title": "V1 keeps every region's pixels contiguous in its point list", "statement": "In Fast MSER V1 the pixels of every region form one contiguous run, of exactly the region's size, of a linked list, and the run of a child lies inside the run of its parent.", "quantifier": "for every sequence of component accumulations and merges", "why_tests_cant": "Histories of list splices are unbounded.", "anchors": ["basicimg/src/img_fast_mser_v1.cpp: img_fast_mser_v1::make_tree_patch", "basicimg/src/img_fast_mser_v1.cpp: img_fast_mser_v1::merge_comp", "basicimg/src/img_fast_mser_v1.cpp: img_fast_mser_v1::connect"]}
{"id": "C31", "title": "V1 parallel extraction distributes all top-level regions", "statement": "When reported regions are extracted with several threads, every outermost reported region is assigned to exactly one thread and is extracted.", "quantifier": "for every list of outermost region sizes and every thread number", "why_tests_cant": "The split is by accumulated size with integer division; only special size lists lose a region.", "anchors": ["basicimg/src/img_fast_mser_v1.cpp: img_fast_mser_v1::extract_pixel_parallel_k_fast", "basicimg/src/img_fast_mser_v1.cpp: img_fast_mser_v1::extract_top_pixel_parallel"]}
{"id": "C32", "title": "Block memory behaves like a growing array", "statement": "Appending elements to the block memory and reading index i returns the i-th appended element, the sequential visitor yields all elements in order exactly once, growing never moves existing elements, and recycled slots are never handed out twice.", "quantifier": "for every sequence of append, recycle, re-initialise and visit operations and every block size exponent from 1 to 30", "why_tests_cant": "Sequences of operations are unbounded and block boundaries are hit only at particular counts.", "anchors": ["basicmath/include/mt_block_memory.h: mt_block_memory", "basicmath/include/mt_block_memory.h: basicmath_block_memory_add"]}
{"id": "C33", "title": "Block memory initialisation uses a valid shift", "statement": "The block size is computed without undefined behaviour for the arguments used by the MSER algorithms.", "quantifier": "for every call made by the algorithms", "why_tests_cant": "The shift by 2000 happens to work on one processor family; a test on it cannot reveal the undefined behaviour.", "anchors": ["basicmath/include/mt_block_memory.h: mt_block_memory::init", "basicimg/src/img_fast_mser_v2.cpp: img_fast_mser_v2::make_tree_patch"]}
{"id": "C34", "title": "Prefix sums", "statement": "The integral array of a list has one more entry than the list and its entry i is the sum of the first i values.", "quantifier": "for every list of values", "why_tests_cant": "Lists are unbounded.", "anchors": ["basicmath/include/mt_helper.h: mt_helper::integral_array"]}
{"id": "C35", "title": "Rectangle growth", "statement": "Appending points or rectangles to an empty rectangle gives the smallest rectangle containing all of them, independent of the order.", "quantifier": "for every nonempty sequence of points/rectangles and every order", "why_tests_cant": "Sequences and orders are unbounded; the if/else-if structure is only right because of an invariant.", "anchors": ["basicmath/include/mt_rect_t.h: mt_rect_t::adjust_by_append_point", "basicmath/include/mt_rect_t.h: mt_rect_t::adjust_by_append_rect"]}
{"id": "C36", "title": "Connected component extraction", "statement": "Extracting the connected components of a masked image partitions the unmasked pixels: every unmasked pixel is in exactly one component, pixels share a component exactly when they are connected through unmasked pixels, and the stack and point buffers, sized by the number of unmasked pixels, are never overrun.", "quantifier": "for every image, mask and connectivity", "why_tests_cant": "All images and masks; the buffers are exactly as large as the worst case.", "anchors": ["basicimg/include/img_connected_component.h: ml_connected_component_base::ture_normal_extract", "basicimg/include/img_connected_component.h: basicimg_cc_n_begin"]}
{"id": "C37", "title": "Channel image shows the innermost region", "statement": "In the level image produced from a result, each pixel covered by reported regions carries the level of the innermost (most extreme) reported region covering it, and uncovered pixels are marked.", "quantifier": "for every result set and both polarities", "why_tests_cant": "Any order and nesting of reported regions must give the same picture.", "anchors": ["basicimg/src/img_mser_result.cpp: img_mser_result::generate_mser_channel_image"]}
{"id": "C38", "title": "Copied results stay valid", "statement": "A copy of a result object remains readable and unchanged after the original is destroyed or overwritten.", "quantifier": "for every result and every history of copies, assignments and destructions", "why_tests_cant": "Ownership histories are unbounded and dangling memory often still holds the old values in a test.", "anchors": ["basicimg/include/img_mser_base.h: img_multi_msers", "basicimg/src/img_mser_base.cpp: img_mser::operator ="]}
{"id": "C39", "title": "Sorting helpers sort", "statement": "The heap sort and the bubble sort return a sorted permutation of their input in the requested direction, without accessing anything outside the list.", "quantifier": "for every input list and direction", "why_tests_cant": "All lists of all lengths; small tests miss a wrong loop bound.", "anchors": ["basicmath/include/mt_sort.h: mt_sort::heap_sort", "basicmath/include/mt_sort.h: mt_sort::bubble_sort"]}
{"id": "C40", "title": "Streaming top-k keeps the k largest", "statement": "After any stream of values the top-k collector holds exactly the k largest (smallest) values seen, as a multiset, or all of them if fewer were seen.", "quantifier": "for every k of at least 1, every stream and both directions", "why_tests_cant": "Streams are unbounded.", "anchors": ["basicmath/include/mt_top_k.h: mt_top_k::traverse"]}
{"id": "C41", "title": "Maximum sum of a contiguous run", "statement": "The reported maximum is attained by the reported begin/length run and no contiguous nonempty run has a larger sum.", "quantifier": "for every nonempty list of integers", "why_tests_cant": "Lists are unbounded and optimality is a statement over all runs.", "anchors": ["basicmath/include/dynamic_programming/mt_max_sum_for_continuous_element.h: mt_max_sum_for_continuous_element"]}
{"id": "C42", "title": "Longest common substring", "statement": "The reported length is the length of the longest common contiguous run of the two lists, and the reported begin indexes locate one such run.", "quantifier": "for every pair of nonempty lists", "why_tests_cant": "Optimality over all substrings of all lists.", "anchors": ["basicmath/include/dynamic_programming/mt_longest_common_substring.h: mt_longest_common_substring"]}
{"id": "C43", "title": "0/1 knapsack value", "statement": "The computed maximum value equals the largest total value of a subset of the items whose total weight does not exceed the limit.", "quantifier": "for every list of items with nonnegative weights and every limit", "why_tests_cant": "Optimality over exponentially many subsets; the memo table must never mix up entries.", "anchors": ["basicmath/include/dynamic_programming/mt_01_bag.h: mt_01_bag::calculate_value"]}
{"id": "C44", "title": "Multi-index round trip", "statement": "Converting a flat index to a multi-index and back is the identity for indexes in range.", "quantifier": "for every shape and in-range index", "why_tests_cant": "Shapes are unbounded.", "anchors": ["basicmath/include/mt_helper.h: mt_helper::index_from_multi_index", "basicmath/include/mt_helper.h: mt_helper::multi_index_from_index"]}
{"id": "C45", "title": "Byte reversal and bit counting", "statement": "Reversing the bytes of a 32-bit integer twice gives it back, and the bit counters return the number of one bits of the two's complement representation, also for negative values.", "quantifier": "for every 32-bit (64-bit) value", "why_tests_cant": "2^32 and 2^64 values, and sign extension only matters for half of them.", "anchors": ["basicmath/src/mt_helper.cpp: mt_helper::reverse_i32", "basicmath/src/mt_helper.cpp: mt_helper::number_of_1"]}
{"id": "C46", "title": "Extracting only bright regions is as safe as extracting both", "statement": "When only bright regions are requested, building the tree of a patch stays inside its heap array and gives the tree of the inverted image, just as it does when dark regions are extracted first.", "quantifier": "for every patch size and gray image", "why_tests_cant": "The initialisation of a bright-only run takes a different branch than the bright pass of a two-polarity run; whether the array is overrun depends on the histogram of the image, and an overrun often goes unnoticed at run time.", "anchors": ["basicimg/src/img_fast_mser_v2.cpp: img_fast_mser_v2::process_tree_patch", "basicimg/include/img_mser_base.h: img_mser_base::enable_extraction"]}
{"id": "C47", "title": "A new block memory can be initialised with every admitted block size", "statement": "Calling init on a newly constructed block memory succeeds for every exponent its assertion admits and gives blocks of two to that power elements.", "quantifier": "for every exponent from 0 to 30 and every flag", "why_tests_cant": "Only the exponent 0 without the own-allocation flag coincides with the state left by the constructor; the undefined access to an empty vector can go unnoticed.", "anchors": ["basicmath/include/mt_block_memory.h: mt_block_memory::init"]}
{"id": "C48", "title": "Sorting with indexes", "statement": "The sort that also returns indexes leaves the data sorted in the requested direction, and entry i of the returned indexes is the original position of element i of the result.", "quantifier": "for every list and both directions", "why_tests_cant": "All lists of all lengths; the wrong bound of the inner loop only shows for particular orders of the elements.", "anchors": ["basicmath/include/mt_sort.h: mt_sort::sort"]}
{"id": "C49", "title": "Knapsack flags mark an optimal choice", "statement": "The items flagged by the knapsack solver together weigh no more than the limit and have the reported maximum value.", "quantifier": "for every list of items with nonnegative weights and every nonnegative limit", "why_tests_cant": "Exponentially many choices; the flags are derived from the memo table in a separate pass.", "anchors": ["basicmath/include/dynamic_programming/mt_01_bag.h: mt_01_bag::detrermine_flag"]}
{"id": "C50", "title": "All begins of longest common runs", "statement": "The list of all begin positions in the first list contains exactly the positions where a longest common run begins.", "quantifier": "for every pair of nonempty lists", "why_tests_cant": "Optimality over all runs of all lists.", "anchors": ["basicmath/include/dynamic_programming/mt_longest_common_substring.h: mt_longest_common_substring::all_a_begin_index"]}
{"id": "C51", "title": "Flipping a vector reverses it", "statement": "After flipping, element i is what element n-1-i was.", "quantifier": "for every vector", "why_tests_cant": "Vectors of up to three elements behave well; the wrong index only shows from four elements on.", "anchors": ["basicmath/include/mt_helper.h: mt_helper::flip_vector"]}
{"id": "C52", "title": "Sorting by parity in original order", "statement": "With the flag for keeping the order, the numbers of the wanted parity come first and both groups keep their original order.", "quantifier": "for every list of integers and both choices of which parity comes first", "why_tests_cant": "Stability over all lists; negative odd numbers have remainder -1 in C++.", "anchors": ["basicmath/include/mt_helper.h: mt_helper::odd_even_sort"]}
{"id": "C53", "title": "Copying from pointers", "statement": "Copying a vector of pointers to a vector of instances gives a vector of the same length with the pointed-to values.", "quantifier": "for every source vector and every previous content of the result", "why_tests_cant": "The content and length of the result before the call are arbitrary.", "anchors": ["basicmath/include/mt_helper.h: mt_helper::instance_from_pointer"]}
{"id": "C54", "title": "Index of the extreme value", "statement": "The reported index is the first position of a largest (smallest) element.", "quantifier": "for every nonempty list of elements of a linear order", "why_tests_cant": "Lists are unbounded; which of several equal elements is reported is easily overlooked.", "anchors": ["basicmath/include/mt_helper.h: mt_helper::index_of_max_value", "basicmath/include/mt_helper.h: mt_helper::index_of_min_value"]}
{"id": "C55", "title": "Counting combinations", "statement": "The number of combinations of k out of n elements is computed whenever that number fits the result type.", "quantifier": "for every n and k with k at most n", "why_tests_cant": "Intermediate factorials overflow long before the result does; signed overflow is undefined.", "anchors": ["basicmath/include/mt_helper.h: mt_helper::combination"]}
{"id": "C56", "title": "Appending an empty rectangle", "statement": "Appending an empty rectangle leaves the covered points unchanged.", "quantifier": "for every rectangle and every empty rectangle", "why_tests_cant": "An empty rectangle still has a position, so the effect depends on coordinates a test would set to something harmless.", "anchors": ["basicmath/include/mt_rect_t.h: mt_rect_t::adjust_by_append_rect"]}
{"id": "C57", "title": "Squaring rectangles", "statement": "Expanding a rectangle gives a square of its longer side that covers it; shrinking gives a square of its shorter side inside it.", "quantifier": "for every rectangle with integer coordinates", "why_tests_cant": "All coordinates and parities of the difference of the sides.", "anchors": ["basicmath/include/mt_rect_t.h: mt_rect_t::expand", "basicmath/include/mt_rect_t.h: mt_rect_t::shrink"]}
{"id": "C58", "title": "Images of background only", "statement": "Extracting the connected components of an image in which every pixel has the background value gives no component.", "quantifier": "for every image size, number of channels and background value", "why_tests_cant": "Only some image sizes are affected: narrow and high ones.", "anchors": ["basicimg/include/img_connected_component.h: ml_connected_component_base::ture_normal_extract", "basicimg/include/img_connected_component.h: ml_connected_component_base::normal_extract_start"]}
{"id": "C59", "title": "Results can be reused", "statement": "A result object that was filled by one extraction can be passed to the next extraction; afterwards it shows the regions of the new image only.", "quantifier": "for every sequence of extractions into the same object and every set of regions found", "why_tests_cant": "Releasing memory with the wrong function often goes unnoticed in a test.", "anchors": ["basicimg/src/img_mser_base.cpp: img_mser_base::extract", "basicimg/src/img_mser_base.cpp: img_multi_msers::operator ="]}
{"id": "C60", "title": "Results leave no memory behind", "statement": "When all result objects are destroyed, all memory of their regions has been released, and each block exactly once.", "quantifier": "for every history of extractions, copies, assignments and destructions", "why_tests_cant": "Leaks do not change what a program shows, and histories are unbounded.", "anchors": ["basicimg/src/img_mser_base.cpp: img_mser::operator =", "basicimg/src/img_mser_base.cpp: img_mser::~img_mser", "basicimg/include/img_mser_base.h: img_multi_msers::~img_multi_msers"]}
{"id": "C61", "title": "V1 flooding builds the component tree in both neighbour modes", "statement": "In Fast MSER V1 flooding a patch with fewer than 256 different gray values ends after a number of steps that depends only on the patch size and the mode; the regions are then the component tree of the patch, under 4-adjacency or, in 8-neighbour mode, under 8-adjacency.", "quantifier": "for every patch size, gray image, gray mask and neighbour mode", "why_tests_cant": "All gray images; V1 keeps its state in bit fields of one word per pixel and in a stack of components.", "anchors": ["basicimg/src/img_fast_mser_v1.cpp: img_fast_mser_v1::make_tree_patch", "basicimg/src/img_fast_mser_v1.cpp: img_fast_mser_v1::init_comp", "basicimg/src/img_fast_mser_v1.cpp: img_fast_mser_v1::new_region"]}
{"id": "C62", "title": "V1 bounding boxes are tight", "statement": "When V1 has flooded a patch, and again when it has joined all patches, the rectangle stored with every region is the smallest one that contains the region's pixels, in image coordinates.", "quantifier": "for every patch size and position, thread number, gray image, gray mask and neighbour mode", "why_tests_cant": "The rectangle is maintained by a chain of else-ifs and by merging, in an order that depends on the image.", "anchors": ["basicimg/src/img_fast_mser_v1.cpp: img_fast_mser_v1::make_tree_patch", "basicimg/src/img_fast_mser_v1.cpp: img_fast_mser_v1::merge_comp"]}
{"id": "C63", "title": "V1 records the regions on joined sides", "statement": "When V1 has flooded a patch, every side that is joined to another patch lists, row by row or column by column, the region of each of its pixels; a region is marked as a boundary region exactly if it contains a pixel on such a side.", "quantifier": "for every patch size, set of joined sides, gray image, gray mask and neighbour mode", "why_tests_cant": "A wrong index shows only for some patch shapes, and a missing mark only for nested regions.", "anchors": ["basicimg/src/img_fast_mser_v1.cpp: img_fast_mser_v1::make_tree_patch", "basicimg/src/img_fast_mser_v1.cpp: img_fast_mser_v1::process_tree_patch"]}
{"id": "C64", "title": "V1 builds the same tree with every number of threads", "statement": "In 4-neighbour mode Fast MSER V1 builds the component tree of the whole image, whether it works with 1, 2, 4, 8, 16 or 32 threads; it is also the tree V2 builds.", "quantifier": "for every image with at least one row and column per patch, every gray mask and thread number", "why_tests_cant": "Joining cuts lists of points apart and splices them in an order sorted by gray value; histories are unbounded.", "anchors": ["basicimg/src/img_fast_mser_v1.cpp: img_fast_mser_v1::connect", "basicimg/src/img_fast_mser_v1.cpp: img_fast_mser_v1::disconnect", "basicimg/src/img_fast_mser_v1.cpp: img_fast_mser_v1::merge_tree_parallel_2", "basicimg/src/img_fast_mser_v1.cpp: img_fast_mser_v1::merge_tree_parallel_4", "basicimg/src/img_fast_mser_v1.cpp: img_fast_mser_v1::merge_tree_parallel_8", "basicimg/src/img_fast_mser_v1.cpp: img_fast_mser_v1::merge_tree_parallel_16", "basicimg/src/img_fast_mser_v1.cpp: img_fast_mser_v1::merge_tree_parallel_32", "basicimg/src/img_fast_mser_v1.cpp: img_fast_mser_v1::merge_tree_parallel_step"]}
{"id": "C65", "title": "V1 8-neighbour mode with several threads", "statement": "In 8-neighbour mode Fast MSER V1 builds the component tree under 8-adjacency with every number of threads.", "quantifier": "for every gray image and thread number", "why_tests_cant": "One pair of pixels that touch at a corner exactly on a patch border is enough to break it.", "anchors": ["basicimg/src/img_fast_mser_v1.cpp: img_fast_mser_v1::merge_tree_parallel_2", "basicimg/src/img_fast_mser_v1.cpp: img_fast_mser_v1::merge_tree_parallel_4", "basicimg/src/img_fast_mser_v1.cpp: img_fast_mser_v1::merge_tree_parallel_step"]}
{"id": "C66", "title": "V1 accepts images of every size", "statement": "Building the tree with any supported number of threads ends without a failure, however small the image is.", "quantifier": "for every image size and thread number", "why_tests_cant": "Small images are rare in tests, and which sizes fail depends on the number of threads.", "anchors": ["basicimg/src/img_fast_mser_v1.cpp: img_fast_mser_v1::merge_tree_parallel_step", "basicimg/src/img_fast_mser_v1.cpp: img_fast_mser_v1::allocate_memory_parallel_8", "basicimg/src/img_fast_mser_v1.cpp: img_fast_mser_v1::allocate_memory_parallel_16", "basicimg/src/img_fast_mser_v1.cpp: img_fast_mser_v1::allocate_memory_parallel_32"]}
{"id": "C67", "title": "V1 recognition reports one region per group", "statement": "V1 reports exactly one region of every group of nested, nearly equal stable regions, none twice, and no region that is not stable; what counts as stable and as nearly equal is as for V2. Unrelated regions never share a group.", "quantifier": "for every image, mask, thread number of V1, neighbour mode and configuration", "why_tests_cant": "V1 also collects regions that were already chosen for another group; whether two groups meet depends on sizes and on the duplicate threshold.", "anchors": ["basicimg/src/img_fast_mser_v1.cpp: img_fast_mser_v1::recognize_mser_parallel", "basicimg/src/img_fast_mser_v1.cpp: img_fast_mser_v1::recognize_mser_parallel_worker", "basicimg/src/img_fast_mser_v1.cpp: img_fast_mser_v1::get_duplicated_regions"]}
{"id": "C68", "title": "V1 hands out the pixels of every reported region", "statement": "With several threads, the record of every region V1 reports lists exactly the pixels of that region, each once, when read as image_from_mser reads it; its size, gray level and rectangle are those of the region. The threads that copy pixels never write to the same place.", "quantifier": "for every image, mask, thread number of V1 from 2 on, neighbour mode and configuration", "why_tests_cant": "Whether the division of the work loses regions depends on the order and the sizes of the outermost regions.", "anchors": ["basicimg/src/img_fast_mser_v1.cpp: img_fast_mser_v1::extract_pixel_parallel_k_fast", "basicimg/src/img_fast_mser_v1.cpp: img_fast_mser_v1::extract_top_pixel_parallel", "basicimg/src/img_mser_helper.cpp: image_from_mser"]}
{"id": "C69", "title": "V1 records can be read when it runs with one thread", "statement": "With one thread, the records of V1 can be read like those of several threads: m_points points to the m_size pixels of the region, and m_rect is its rectangle.", "quantifier": "for every image, mask, neighbour mode and configuration", "why_tests_cant": "The record has the same type for all thread numbers; only reading it shows what it contains.", "anchors": ["basicimg/src/img_fast_mser_v1.cpp: img_fast_mser_v1::extract_pixel_parallel_1_fast", "basicimg/src/img_mser_helper.cpp: image_from_mser"]}
{"id": "C70", "title": "Reported regions do not depend on the number of threads", "statement": "Run on the same image with the same configuration, Fast MSER V2 and Fast MSER V1 in 4-neighbour mode report the same regions whatever the number of threads: the same sets of pixels, each with the same gray level, and the same totals.", "quantifier": "for every image, mask, configuration and pair of runs of V2 (1, 4, 32 threads) or V1 (1, 2, 4, 8, 16, 32 threads)", "why_tests_cant": "Duplicates are removed in the order in which regions lie in memory, which differs between thread numbers; whether that shows depends on unrelated regions competing for a common ancestor.", "anchors": ["basicimg/src/img_fast_mser_v2.cpp: recognize_mser_serial", "basicimg/src/img_fast_mser_v2.cpp: recognize_mser_parallel", "basicimg/src/img_fast_mser_v2.cpp: get_duplicated_regions", "basicimg/src/img_fast_mser_v1.cpp: img_fast_mser_v1::recognize_mser_parallel", "basicimg/src/img_fast_mser_v1.cpp: img_fast_mser_v1::get_duplicated_regions"]}
{"id": "C71", "title": "The linear detector builds the component tree", "statement": "In one pass over the image, the linear detector ends after exactly five (nine) steps per pixel in 4-neighbour (8-neighbour) mode and leaves a region for every connected set of pixels up to some level, nested as these sets are nested, with the right level and size. The linked list of a region holds exactly its pixels, each once, and is a contiguous piece of the list of the region around it.", "quantifier": "for every image, mask, gray direction and neighbour mode", "why_tests_cant": "The list pointers, the packed words of the image and the heap are interleaved; a wrong word spoils only some images.", "anchors": ["basicimg/src/img_linked_linear_mser.cpp: build_tree", "basicimg/src/img_linked_linear_mser.cpp: pre_process_image", "basicimg/src/img_linked_linear_mser.cpp: extract_pass", "basicimg/src/img_linked_linear_mser.cpp: accumulate_comp", "basicimg/src/img_linked_linear_mser.cpp: merge_comp", "basicimg/src/img_linked_linear_mser.cpp: new_region"]}
{"id": "C72", "title": "The linear detector honours its masks", "statement": "Pixels outside the mask (zero in a mask image, outside a mask rectangle, or of the masked gray value) are flooded after all others, at a level above every gray value, so that they separate regions and belong to none.", "quantifier": "for every image, kind of mask, gray direction and neighbour mode", "why_tests_cant": "The kinds of masks are handled by different branches for the two gray directions.", "anchors": ["basicimg/src/img_linked_linear_mser.cpp: pre_process_image", "basicimg/src/img_mser_base.cpp: extract"]}
{"id": "C73", "title": "Passes of the linear detector are independent", "statement": "The regions and lists that a pass of the linear detector leaves depend only on the image, the mask and the gray direction, not on what earlier passes or images left in the buffers.", "quantifier": "for every image, mask, gray direction, neighbour mode and contents of the buffers", "why_tests_cant": "Buffers are reused between the two passes and between images; that nothing stale is read needs the whole history.", "anchors": ["basicimg/src/img_linked_linear_mser.cpp: build_tree", "basicimg/src/img_linked_linear_mser.cpp: pre_process_image", "basicimg/src/img_linked_linear_mser.cpp: clear_memory_cache", "basicimg/src/img_linked_linear_mser.cpp: allocate_memory"]}
{"id": "C74", "title": "The linear detector reports the maximally stable regions", "statement": "Without a mask, recognition of the linear detector ends and its candidates are exactly the regions of the component tree that meet the size limits, are stable enough and are not suppressed by a neighbour level (with delta not positive: exactly those that meet the size limits). Of each group of nested nearly equal candidates exactly one is reported.", "quantifier": "for every image, gray direction, neighbour mode and configuration", "why_tests_cant": "Selection, suppression and duplicate removal change flags and counters in place; an error in a counter shows only for some shapes of the tree.", "anchors": ["basicimg/src/img_linked_linear_mser.cpp: recognize_mser", "basicimg/src/img_linked_linear_mser.cpp: recognize_mser_normal", "basicimg/src/img_linked_linear_mser.cpp: calculate_variation", "basicimg/src/img_linked_linear_mser.cpp: remove_duplicated", "basicimg/src/img_linked_linear_mser.cpp: get_duplicated_regions"]}
{"id": "C75", "title": "Records of the linear detector are exact and fill the memory", "statement": "On images of less than 2^23 pixels, every record of the linear detector can be read and holds, each once, the pixels of one connected component of a level set of the image; gray level, size and rectangle are those of the component, the size limits are kept, no component is delivered twice, and the records fill the allocated points exactly, one behind the other.", "quantifier": "for every image of less than 2^23 pixels, mask, gray direction, neighbour mode and configuration", "why_tests_cant": "The number of points allocated is summed up in another function than the copying; every nesting of regions gives another layout.", "anchors": ["basicimg/src/img_linked_linear_mser.cpp: extract_pixel", "basicimg/src/img_linked_linear_mser.cpp: extract_pixel_share_memory", "basicimg/src/img_linked_linear_mser.cpp: remove_duplicated", "basicimg/src/img_mser_helper.cpp: image_from_mser"]}
{"id": "C76", "title": "The linear detector and the fast detectors agree", "statement": "Run on the same image without a mask and with the same configuration, the linear detector in 4-neighbour mode delivers the same regions, with the same gray levels, as Fast MSER V2 and V1 with any number of threads.", "quantifier": "for every image, gray direction, configuration and run of V2 or V1", "why_tests_cant": "The detectors share no code for flooding; agreement on test images does not cover all orders in which duplicates are removed.", "anchors": ["basicimg/src/img_linked_linear_mser.cpp: process_tree_patch", "basicimg/src/img_linked_linear_mser.cpp: recognize_mser", "basicimg/src/img_fast_mser_v2.cpp: recognize_mser", "basicimg/src/img_fast_mser_v1.cpp: img_fast_mser_v1::recognize_mser"]}
{"id": "C77", "title": "The linear detector delivers no masked pixels", "statement": "No record of the linear detector contains a pixel that is masked out: zero in the mask image, of the masked gray value, or outside the mask rectangle.", "quantifier": "for every image, mask, gray direction, neighbour mode and configuration", "why_tests_cant": "Masked pixels get a level that does not fit the byte in which levels are stored; what that does depends on the whole tree.", "anchors": ["basicimg/src/img_linked_linear_mser.cpp: pre_process_image", "basicimg/src/img_linked_linear_mser.cpp: recognize_mser_normal", "basicimg/src/img_linked_linear_mser.cpp: extract_pixel_share_memory"]}
{"id": "C78", "title": "With a mask the linear detector still reports only stable regions", "statement": "With a mask image, every region the linear detector reports is stable enough when measured among the unmasked pixels, as it is without a mask.", "quantifier": "for every image, mask image, gray direction, neighbour mode and configuration", "why_tests_cant": "The level of the region of all pixels is stored in a byte and comes out as 0; regions near the top of the tree are then measured against it.", "anchors": ["basicimg/src/img_linked_linear_mser.cpp: calculate_variation", "basicimg/src/img_linked_linear_mser.cpp: new_region", "basicimg/src/img_linked_linear_mser.cpp: recognize_mser_normal"]}
{"id": "C79", "title": "The original detector builds the component tree of the unmasked pixels", "statement": "After the dark pass the regions of img_original_mser form the component tree of the pixels the mask leaves in, with the neighbourhood that was set; after the bright pass that of the inverted image.", "quantifier": "for every image, mask (none, rectangle, image, value), neighbour mode and gray direction; the detector new or last used with the same number of unmasked pixels", "why_tests_cant": "Regions are joined through shortcuts that are compressed on the way; which regions get the merged flag depends on the order of the pixels.", "anchors": ["basicimg/src/img_origin_mser.cpp: img_original_mser::allocate_memory", "basicimg/src/img_origin_mser.cpp: img_original_mser::extractPass", "basicimg/src/img_origin_mser.cpp: img_original_mser::build_tree", "basicimg/src/img_origin_mser.cpp: img_original_mser::reversePixelValue"]}
{"id": "C80", "title": "The original detector can be reused", "statement": "An img_original_mser object that has processed other images delivers for an image the same as a new object.", "quantifier": "for every sequence of images of any sizes and masks", "why_tests_cant": "Regions of an earlier image stay in m_regions if the number of pixels changes; a test with one image, or with images of one size, never sees it.", "anchors": ["basicimg/src/img_origin_mser.cpp: img_original_mser::allocate_memory", "basicimg/src/img_origin_mser.cpp: img_original_mser::resetPreInfo", "basicimg/src/img_origin_mser.cpp: img_original_mser::clear_memory_cache", "basicimg/src/img_mser_base.cpp: img_mser_base::extract"]}
{"id": "C81", "title": "The original detector reports one region per group of admitted regions", "statement": "The candidates of img_original_mser are exactly the regions of the component tree within the size limits, with a stability value (if one exists) of at most the threshold and not suppressed by a neighbour level; with delta 0 those within the size limits. The region of all pixels takes part. Of each group of nested nearly equal candidates exactly one is reported.", "quantifier": "for every image, mask, neighbour mode, gray direction and configuration", "why_tests_cant": "Shortcuts to the region reached last are handed on from region to parent; whether they skip a region depends on the whole tree.", "anchors": ["basicimg/src/img_origin_mser.cpp: img_original_mser::recognize_mser", "basicimg/src/img_origin_mser.cpp: img_original_mser::calculateStableVariantion", "basicimg/src/img_origin_mser.cpp: img_original_mser::getDuplicatedRegions"]}
{"id": "C82", "title": "Records of the original detector are exact", "statement": "Every record of img_original_mser holds, each once, the pixels of one connected component of a level set of the unmasked pixels; gray level, size and rectangle are those of the component and the size limits are kept. No component is delivered twice, and there are no empty records.", "quantifier": "for every image, mask, neighbour mode, gray direction and configuration", "why_tests_cant": "The number of records is computed from a counter of invalid regions kept in four loops; the points come from lists joined during flooding.", "anchors": ["basicimg/src/img_origin_mser.cpp: img_original_mser::extract_pixel", "basicimg/src/img_origin_mser.cpp: img_original_mser::recognize_mser", "basicimg/src/img_origin_mser.cpp: img_original_mser::extractPass"]}
{"id": "C83", "title": "The original detector agrees with the others on unmasked images", "statement": "Without a mask, if the largest region size is below the size of the image, delta is positive and the duplicate threshold is below 2/5, the original detector delivers exactly the regions (pixel sets with gray levels) that V1 and V2 report with any number of threads (4 neighbours), and exactly those that the linear detector delivers (4 or 8 neighbours).  If the largest region size is not below the size of the image, the original detector also delivers the region of all pixels, which V1 and V2 never do.", "quantifier": "all images, both gray directions, all configurations within the limits named, any thread number, new or reused detector object", "why_tests_cant": "The detectors flood in different orders and keep regions in different data; agreement is about all images and all configurations, a test compares a few.", "anchors": ["basicimg/src/img_origin_mser.cpp: img_original_mser::extract_pixel", "basicimg/src/img_origin_mser.cpp: img_original_mser::recognize_mser", "basicimg/src/img_linked_linear_mser.cpp: recognize_mser", "basicimg/src/img_fast_mser_v1.cpp: img_fast_mser_v1::recognize_mser"]}
{"id": "C84", "title": "Masked pixels do not matter to the original detector", "statement": "Two images that agree on the pixels the mask leaves in, and of which the mask leaves the same pixels in, give identical records; no pixel left out by the mask is ever delivered.  If a mask image or mask value leaves no pixel in, the behaviour is undefined.", "quantifier": "all images, all kinds of masks, all configurations, both neighbour modes", "why_tests_cant": "A statement about pairs of images that differ anywhere outside the mask.", "anchors": ["basicimg/src/img_origin_mser.cpp: img_original_mser::allocate_memory", "basicimg/src/img_origin_mser.cpp: img_original_mser::extract_pixel"]}
{"id": "C85", "title": "A mask rectangle is a crop for the original detector", "statement": "Extracting with a mask rectangle that lies in the image gives the records of extracting from the cropped image without a mask, in the same order, with points and bounding rectangles moved by the corner of the rectangle.", "quantifier": "all images, all rectangles in the image, all configurations, both neighbour modes, any state of the detector object", "why_tests_cant": "Every rectangle of every image would have to be tried; the equality includes the order of records and points.", "anchors": ["basicimg/src/img_origin_mser.cpp: img_original_mser::allocate_memory", "basicimg/src/img_origin_mser.cpp: img_original_mser::extract_pixel"]}
{"id": "C86", "title": "The ms detector builds the component tree", "statement": "After the dark pass the regions of img_ms_mser form the component tree of the image; after the bright pass that of the inverted image; no index leaves its array.", "quantifier": "for every image and gray direction, 4 and 8 neighbours, with and without a mask", "why_tests_cant": "The stack of components has room for 257 entries including a guard; whether an image needs more depends on its gradients. The bright pass relies on data only the dark pass writes.", "anchors": ["basicimg/src/img_ms_mser.cpp: img_ms_mser::allocate_memory", "basicimg/src/img_ms_mser.cpp: img_ms_mser::pre_process_image", "basicimg/src/img_ms_mser.cpp: img_ms_mser::build_tree", "basicimg/src/img_ms_mser.cpp: img_ms_mser::init_comp", "basicimg/src/img_ms_mser.cpp: img_ms_mser::new_region"]}
{"id": "C87", "title": "The ms detector reports one region per group of admitted regions", "statement": "The candidates of img_ms_mser are exactly the regions of the component tree, other than the region of all pixels, within the size limits, with a stability value of at most the threshold and not suppressed by a neighbour level; with delta 0 those within the size limits. Of each group of nested nearly equal candidates exactly one is reported.", "quantifier": "for every image, gray direction and configuration (4 neighbours, no mask)", "why_tests_cant": "Holds for every component tree and every configuration; variations are kept in fields that still hold values of the last image.", "anchors": ["basicimg/src/img_ms_mser.cpp: img_ms_mser::recognize_mser_normal", "basicimg/src/img_ms_mser.cpp: img_ms_mser::remove_duplicated", "basicimg/src/img_ms_mser.cpp: img_ms_mser::calculate_variation", "basicimg/src/img_ms_mser.cpp: img_ms_mser::get_duplicated_regions"]}
{"id": "C88", "title": "Records of the ms detector are exact", "statement": "Every record of img_ms_mser holds, each once, the pixels of one connected component of a level set; size, rectangle and gray level are those of the component, for dark and for bright regions. There is one record for every reported region. This holds for each of the three ways of storing points: an array per record, one array with every region written out, one array in which large records refer to the records they contain.", "quantifier": "for every image below 2^22 pixels with at most 255 gray values (4 neighbours, no mask), every configuration, every threshold for sharing, whatever uninitialised memory contains", "why_tests_cant": "Offsets into shared arrays depend on the nesting of all reported regions; the third way stores child tables behind the points and reads them back through record indices.", "anchors": ["basicimg/src/img_ms_mser.cpp: img_ms_mser::extract_pixel", "basicimg/src/img_mser_helper.cpp: img_mser_helper::image_from_mser"]}
{"id": "C89", "title": "The ms detector agrees with V1 and V2", "statement": "With 4 neighbours and no mask img_ms_mser delivers the same regions (pixel sets with gray levels) as V1 and V2 report with any number of threads.", "quantifier": "all images below 2^22 pixels with at most 255 gray values, both gray directions, all configurations, any number of threads", "why_tests_cant": "The detectors flood in different orders, keep regions in different data and remove duplicates in different orders; agreement is about all images and configurations.", "anchors": ["basicimg/src/img_ms_mser.cpp: img_ms_mser::extract_pixel", "basicimg/src/img_ms_mser.cpp: img_ms_mser::remove_duplicated", "basicimg/src/img_fast_mser_v1.cpp: img_fast_mser_v1::recognize_mser"]}
{"id": "C90", "title": "A reported region is drawn completely", "statement": "img_mser_helper::image_from_mser draws a record into a picture that is a square up to one row or column and just large enough for the record's rectangle, with equal margins; it never writes outside the picture, and foreground pixels are exactly the pixels of the reported region, shifted.", "quantifier": "for every record of every detector, every foreground and background colour (before the optional final resize)", "why_tests_cant": "Whether a point lands inside the picture depends on the rectangle of the record; a wrong rectangle silently drops pixels, which only shows for particular region shapes.", "anchors": ["basicimg/src/img_mser_helper.cpp: img_mser_helper::image_from_mser", "basicimg/src/img_mser_helper.cpp: is_point_in_image"]}
{"id": "C91", "title": "The chessboard generator alternates squares", "statement": "genarate_chessboard paints pixel (row, col) black if row/chess_size + col/chess_size is even and white otherwise; a chess size of 0 is undefined.", "quantifier": "all image sizes, all positions, all positive chess sizes", "why_tests_cant": "The colour is toggled incrementally along a row; boundary positions of arbitrary sizes are too many to test.", "anchors": ["basicimg/src/img_img.cpp: img_img::genarate_chessboard"]}
{"id": "C92", "title": "Regions of the OpenCV detector are connected", "statement": "The points of a region reported by img_opencv_mser are, each once, the pixels of one connected component of a threshold set; their number is within the size limits and the rectangle of the record is their bounding box.", "quantifier": "for every image, both gray directions, every configuration", "why_tests_cant": "Regions are prefixes of linked lists that are concatenated when components merge; that a prefix is a component depends on the order of all merges and only fails for particular images.", "anchors": ["basicimg/src/img_opencv_mser.cpp: img_opencv_mser::extractPass", "basicimg/src/img_opencv_mser.cpp: img_opencv_mser::mergeComp", "basicimg/src/img_opencv_mser.cpp: img_opencv_mser::toMSERInfo", "basicimg/src/img_opencv_mser.cpp: img_opencv_mser::isStable"]}
{"id": "C93", "title": "Gray level and direction of regions of the OpenCV detector", "statement": "The gray level in a record of img_opencv_mser is the gray value up to which (for dark regions: m_msers[0]) or from which (for bright regions: m_msers[1]) the region is a connected component of the image, as in the other detectors.", "quantifier": "for every image, both gray directions, every configuration", "why_tests_cant": "Two inversions must cancel for every gray value; a picture of the regions looks plausible either way.", "anchors": ["basicimg/src/img_opencv_mser.cpp: img_opencv_mser::toMSERInfo", "basicimg/src/img_opencv_mser.cpp: img_opencv_mser::preProcessImage", "basicimg/src/img_opencv_mser.cpp: img_opencv_mser::extract_pixel"]}
{"id": "C94", "title": "Coordinates of the OpenCV detector", "statement": "The coordinates delivered for a pixel of img_opencv_mser are its column and row in the image.", "quantifier": "for every image size, every pixel, whatever uninitialised members contain", "why_tests_cant": "The row is computed with a member that is never assigned: a test sees whatever the memory happens to contain.", "anchors": ["basicimg/src/img_opencv_mser.cpp: img_opencv_mser::extractPass", "basicimg/src/img_opencv_mser.cpp: img_opencv_mser::allocate_memory"]}
{"id": "C95", "title": "The OpenCV detector ends", "statement": "A pass of img_opencv_mser comes to its end after at most five steps per pixel, never uses a pointer that was not assigned, never leaves the image buffer, the component stack, the point array or the history array, and never divides by zero.", "quantifier": "for every non-empty 8-bit image, both gray directions, every configuration, whatever the buffers contain", "why_tests_cant": "The bounds of the history and point arrays are met exactly; the loops over short cuts end only because of an order on all histories created so far.", "anchors": ["basicimg/src/img_opencv_mser.cpp: img_opencv_mser::extractPass", "basicimg/src/img_opencv_mser.cpp: img_opencv_mser::calculateVariation", "basicimg/src/img_opencv_mser.cpp: img_opencv_mser::allocate_memory"]}
{"id": "C96", "title": "Reusing the OpenCV detector", "statement": "What the buffers of img_opencv_mser contained before a pass does not change what is reported: an object used for other images before reports the same as a new one.", "quantifier": "for every image, both gray directions, every configuration, every two contents of the image buffer, the history array and the point array", "why_tests_cant": "Depends on every cell and entry being written before it is read, along all paths of the flooding.", "anchors": ["basicimg/src/img_opencv_mser.cpp: img_opencv_mser::allocate_memory", "basicimg/src/img_opencv_mser.cpp: img_opencv_mser::preProcessImage", "basicimg/src/img_opencv_mser.cpp: img_opencv_mser::extractPass"]}
{"id": "C97", "title": "Parts of an array", "statement": "sub, row, col, index, front and back of an mt_mat give an array that shares memory with the original and shows exactly the elements asked for: the address of an element of the part is the address of the corresponding element of the original, nothing outside the original can be reached through the part, and a request outside of the array is noticed.", "quantifier": "for every array with any sizes, any steps (also negative), any depth, any channels, and all ranges", "why_tests_cant": "Views can be views of views with arbitrary steps; a missing check only shows for particular ranges.", "anchors": ["basicmath/src/mt_mat.cpp: mt_mat::sub", "basicmath/src/mt_mat.cpp: mt_mat::index", "basicmath/src/mt_mat.cpp: mt_mat::row", "basicmath/src/mt_mat.cpp: mt_mat::col", "basicmath/src/mt_mat.cpp: mt_mat::front", "basicmath/src/mt_mat.cpp: mt_mat::back"]}
{"id": "C98", "title": "Planes of a stack of pictures", "statement": "plane(p) of a three-dimensional mt_mat is the p-th picture: sizes 1 x rows x columns, element (0, i, j) is element (p, i, j) of the stack.", "quantifier": "all sizes, all plane numbers", "why_tests_cant": "A wrong dimension goes unnoticed when the sizes are equal.", "anchors": ["basicmath/src/mt_mat.cpp: mt_mat::plane"]}
{"id": "C99", "title": "Flipping", "statement": "flip gives an array with the same memory in which the flipped dimensions are counted from the other end and all others are as before; flipping twice gives the original.", "quantifier": "all arrays with any steps, all choices of dimensions, whatever uninitialised memory contains", "why_tests_cant": "The result of the variant with a list of dimensions depends on uninitialised memory; a test sees whatever is there.", "anchors": ["basicmath/src/mt_mat.cpp: mt_mat::flip", "basicmath/src/mt_mat.cpp: mt_mat::flip_all"]}
{"id": "C100", "title": "Exchanging dimensions", "statement": "swap_dimension exchanges two indices without touching the elements, and t() of a picture shows element (i, j) as (j, i).", "quantifier": "all arrays, all pairs of dimensions", "why_tests_cant": "Must hold for any steps, including those of views of views.", "anchors": ["basicmath/src/mt_mat.cpp: mt_mat::swap_dimension", "basicmath/src/mt_mat.cpp: mt_mat::t"]}
{"id": "C101", "title": "Channels", "statement": "sub_channel and channel_at show the channels asked for; channel_as_last_dim makes the channel the last index, and last_dim_as_channel undoes it.", "quantifier": "all arrays, all channel ranges", "why_tests_cant": "Address arithmetic over arbitrary sizes, steps, and element types.", "anchors": ["basicmath/src/mt_mat.cpp: mt_mat::sub_channel", "basicmath/src/mt_mat.cpp: mt_mat::channel_at", "basicmath/src/mt_mat.cpp: mt_mat::channel_as_last_dim", "basicmath/src/mt_mat.cpp: mt_mat::last_dim_as_channel"]}
{"id": "C102", "title": "Memory of a new array", "statement": "All elements of a newly created mt_mat lie in the memory allocated for it, no two of them overlap, and no allocated byte is left over.", "quantifier": "any number of dimensions, any sizes, all depths, any number of channels", "why_tests_cant": "Needs the mixed radix representation of all offsets.", "anchors": ["basicmath/src/mt_mat.cpp: mt_mat::create", "basicmath/src/mt_mat.cpp: mt_mat::auto_step"]}
{"id": "C103", "title": "Continuity of an array", "statement": "is_continuous is true exactly when the elements of a non-empty mt_mat follow each other in row-major order without gaps, forwards or backwards.", "quantifier": "any number of dimensions, any sizes of at least 1, any steps", "why_tests_cant": "Holds for any steps, including those left by parts and flips with sizes of 1.", "anchors": ["basicmath/src/mt_mat.cpp: mt_mat::is_continuous", "basicmath/src/mt_mat.cpp: mt_mat::continuous_dim"]}
{"id": "C104", "title": "Memory of a continuous array", "statement": "memory_data() is the lowest address of an element, and a continuous array occupies exactly the memory_size() bytes from there on, in whichever direction its dimensions are counted.", "quantifier": "all arrays, for the second part all continuous ones", "why_tests_cant": "Over all combinations of flipped dimensions.", "anchors": ["basicmath/src/mt_mat.cpp: mt_mat::memory_data", "basicmath/src/mt_mat.cpp: mt_mat::memory_size"]}
{"id": "C105", "title": "Iteration over elements", "statement": "mt_array_iterator delivers the address of every element exactly once, in row-major order, and then ends.", "quantifier": "all arrays with any number of dimensions, sizes and steps", "why_tests_cant": "The carry over several dimensions and the end after the last element, for any sizes; and that it ends at all for arrays without elements.", "anchors": ["basicmath/src/mt_mat.cpp: mt_array_iterator", "basicmath/src/mt_mat.cpp: mt_array_iterator::next"]}
{"id": "C106", "title": "Setting an array to another", "statement": "set(other) gives every element of the array the value of the element of other with the same index, and changes no other byte; with different element types, a value representable in both is kept.", "quantifier": "all pairs of arrays with the same sizes and channels and disjoint memory, any steps, any contents", "why_tests_cant": "There are separate paths for continuous arrays, one, two, three and more dimensions; the memory outside is not looked at by tests.", "anchors": ["basicmath/src/mt_mat.cpp: mt_mat::set"]}
{"id": "C107", "title": "Cloning", "statement": "clone() gives a new continuous array with the same sizes, type and elements that shares no memory with the original; no byte outside of the new memory changes.", "quantifier": "all arrays, any steps, any contents", "why_tests_cant": "Independence of the two memories for all layouts.", "anchors": ["basicmath/src/mt_mat.cpp: mt_mat::clone", "basicmath/src/mt_mat.cpp: mt_mat::copy_from"]}
{"id": "C108", "title": "Filling an array", "statement": "set(value) and set(scalar) give every channel of every element the value (given for that channel) and change no other byte, for all values the element type can represent.", "quantifier": "all arrays, any steps, any representable values", "why_tests_cant": "The memory between the rows of a part must stay as it is; separate paths by dimensions, channels, and type.", "anchors": ["basicmath/src/mt_mat.cpp: mt_mat::set", "basicmath/src/mt_mat.cpp: basicmath_fill"]}
{"id": "C109", "title": "Testing for zero", "statement": "is_zero() is true exactly when every channel of every element is 0.", "quantifier": "all arrays, all element types, any contents", "why_tests_cant": "A test would have to have the nonzero byte where it is not looked for.", "anchors": ["basicmath/src/mt_mat.cpp: mt_mat::is_zero"]}
{"id": "C110", "title": "Comparing arrays", "statement": "operator== is true exactly when both arrays have the same sizes, type and channels and the same elements.", "quantifier": "all pairs of arrays, any steps, any contents", "why_tests_cant": "Separate paths by dimensions and continuity, each of which must look at all elements.", "anchors": ["basicmath/src/mt_mat.cpp: mt_mat::operator==", "basicmath/src/mt_mat.cpp: mt_mat::compare"]}
{"id": "C111", "title": "Changing the sizes without moving elements", "statement": "reshape, when its check passes, gives an array with the sizes asked for that has exactly the same memory and in which the elements come in the same row-major order; reshape_channel likewise moves values between the last index and the channels.", "quantifier": "all arrays passing the check, all sizes", "why_tests_cant": "Must hold for all layouts that are called continuous, including flipped ones.", "anchors": ["basicmath/src/mt_mat.cpp: mt_mat::reshape", "basicmath/src/mt_mat.cpp: mt_mat::reshape_channel"]}
{"id": "C112", "title": "Splitting, combining, adding and removing dimensions", "statement": "split_dim, increase_dim, combine_dim and decrease_dim give an array in which the remaining and new indices address the elements they did, in row-major order within the dimension split or combined; elements are copied if no steps can express that.", "quantifier": "all arrays, all dimensions, all factorisations of a size", "why_tests_cant": "A combined dimension of a part of an array addresses other elements, within memory.", "anchors": ["basicmath/src/mt_mat.cpp: mt_mat::split_dim", "basicmath/src/mt_mat.cpp: mt_mat::increase_dim", "basicmath/src/mt_mat.cpp: mt_mat::combine_dim", "basicmath/src/mt_mat.cpp: mt_mat::decrease_dim"]}
{"id": "C113", "title": "Index of an element from its address", "statement": "get_index, given the address of an element of an mt_mat, delivers the index of that element.", "quantifier": "all arrays whose elements do not overlap: new ones, parts, flipped and transposed ones", "why_tests_cant": "The index is found by dividing by the steps in order of size, with a special treatment of negative steps; must hold for all layouts.", "anchors": ["basicmath/src/mt_mat.cpp: mt_mat::get_index"]}
{"id": "C114", "title": "Repeating an array", "statement": "repeat gives a new array of the sizes and channels multiplied by the numbers of repetitions, in which the element at any index is that of the original at the index modulo its sizes, channel modulo its channels; no byte outside of the new memory changes. The index iterator used for it delivers every index exactly once in row-major order.", "quantifier": "all arrays with any number of dimensions and channels, any steps, any numbers of repetitions", "why_tests_cant": "All combinations of tiles over any number of dimensions.", "anchors": ["basicmath/src/mt_mat.cpp: mt_mat::repeat", "basicmath/src/mt_array_iteration.cpp: mt_array_index_iterator::next"]}
{"id": "C115", "title": "Joining arrays", "statement": "merge_align_channel gives an array that has the channels of all elements behind each other; merge_align_dim one that has the elements behind each other along a dimension; no byte outside of the new memory changes.", "quantifier": "any number of arrays whose other sizes agree, any steps", "why_tests_cant": "Number and sizes of the arrays are arbitrary; that each byte is written and none outside.", "anchors": ["basicmath/src/mt_mat_helper.cpp: mt_mat_helper::merge_align_channel", "basicmath/src/mt_mat_helper.cpp: mt_mat_helper::merge_align_dim"]}
{"id": "C116", "title": "Splitting a text", "statement": "split delivers the pieces of a text between the occurrences of a tag: joined by the tag they are the text again, and none of them contains the tag.", "quantifier": "all texts, all tags", "why_tests_cant": "All texts and tags, tags at the ends, behind each other and overlapping.", "anchors": ["basicsys/src/sys_strhelper.cpp: sys_strhelper::split"]}
{"id": "C117", "title": "Replacing in a text", "statement": "replace exchanges every occurrence of a text, from left to right, by another one and leaves everything else as it was; it ends.", "quantifier": "all texts, also when the new one contains the old one", "why_tests_cant": "That no occurrence is missed and none is replaced within the new text.", "anchors": ["basicsys/src/sys_strhelper.cpp: sys_strhelper::replace"]}
{"id": "C118", "title": "Trimming a text", "statement": "trim_left removes exactly the characters at the beginning that equal the given one.", "quantifier": "all texts, all characters", "why_tests_cant": "Texts that consist of that character only, empty texts.", "anchors": ["basicsys/src/sys_strhelper.cpp: sys_strhelper::trim_left"]}
{"id": "C119", "title": "Edit distance", "statement": "levenshtein_distance delivers the lowest total price of insertions, replacements and deletions that change one word into the other.", "quantifier": "all words, all prices", "why_tests_cant": "Optimality over all sequences of changes; and the width of the table entries.", "anchors": ["basicsys/src/sys_strhelper.cpp: sys_strhelper::levenshtein_distance"]}
{"id": "C120", "title": "Folder and name of a path", "statement": "The folder path and the file name of a path, put together, are the path (with one kind of separators); the file name has no separator.", "quantifier": "all paths, both kinds of separators", "why_tests_cant": "Position and kind of separators in the path are arbitrary.", "anchors": ["basicsys/src/sys_path.cpp: sys_path::get_file_name", "basicsys/src/sys_path.cpp: sys_path::get_dir_path"]}
{"id": "C121", "title": "Title and extension of a name", "statement": "Title and extension (which is delivered in lower case) put together are the file name, the extension begins with the last dot of the name; the folder name of a path that ends with a separator is its last part.", "quantifier": "all paths", "why_tests_cant": "Dots in folder names and names without a dot.", "anchors": ["basicsys/src/sys_path.cpp: sys_path::get_file_title", "basicsys/src/sys_path.cpp: sys_path::get_file_extend_name", "basicsys/src/sys_path.cpp: sys_path::get_dir_name"]}
{"id": "C122", "title": "Names of element types", "statement": "Depth and number of channels are recovered from an element type, and the type from its text form.", "quantifier": "all depths, all numbers of channels the type can hold", "why_tests_cant": "All numbers of channels, whose decimal form is read back.", "anchors": ["basicmath/src/mt_data_type.cpp: depth_channel_str, depth_channel_i32", "basicmath/include/mt_data_type.h: mt_Depth_Channel, channel, depth"]}
{"id": "C123", "title": "Size of a convolution", "statement": "get_conv_result_size delivers the number of places at which the kernel can be put, counted in steps of the stride from the first place.", "quantifier": "all sizes, kernels, strides, three kinds of borders", "why_tests_cant": "Divisibility of sizes by strides and kernels larger than the source.", "anchors": ["basicmath/src/mt_mat_helper.cpp: mt_mat_helper::get_conv_result_size"]}
{"id": "C124", "title": "Size of a pooling", "statement": "get_pooling_result_size delivers the number of windows that begin at multiples of the stride within the source, up to the first one that reaches its end; they cover the source if they are not apart.", "quantifier": "all sizes, windows and strides of at least 1", "why_tests_cant": "All relations between size, window and stride.", "anchors": ["basicmath/src/mt_mat_helper.cpp: mt_mat_helper::get_pooling_result_size"]}
{"id": "C125", "title": "What is written as binary JSON is read back", "statement": "A tree of maps, sequences, texts and numbers written by << of sys_json_writer into a byte buffer is found again by sys_json_reader: at every level the same nodes in the same order with the same names, types and bytes; asking a map for a name delivers the first node with that name.", "quantifier": "all trees, any depth, any names and contents", "why_tests_cant": "Back-patched sizes of groups nested to any depth; any contents.", "anchors": ["basicsys/src/sys_json.cpp: sys_json_writer::operator<<", "basicsys/src/sys_json.cpp: sys_json_writer::binary_write_str", "basicsys/src/sys_json.cpp: sys_json_reader::load", "basicsys/src/sys_json.cpp: sys_json_reader::binary_load_struct_info", "basicsys/src/sys_json.cpp: sys_json_reader::operator[]"]}
{"id": "C126", "title": "Numbers of binary JSON", "statement": "An integer of any integer type that is written as binary JSON and read as the same type is unchanged.", "quantifier": "all integer types, all values", "why_tests_cant": "2^64 values; the reading converts through a double.", "anchors": ["basicsys/src/sys_json.cpp: sys_json_writer::operator<<", "basicsys/src/sys_json.cpp: sys_json_reader::operator>>"]}
{"id": "C127", "title": "Idiap detector: flooding", "statement": "Both passes of img_idiap_mser end, stay inside of their arrays, and leave in the pool the component tree of the image for the neighbourhood that is set, with area, level, parent and children of every region.", "quantifier": "all images of 8-bit values and at least one pixel, four or eight neighbours, either or both directions", "why_tests_cant": "All images; the read outside is one past an array on the stack and mostly goes unnoticed.", "anchors": ["basicimg/src/img_idiap_mser.cpp: img_idiap_mser::extract_pixel", "basicimg/src/img_idiap_mser.cpp: img_idiap_mser::processStack", "basicimg/src/img_idiap_mser.cpp: img_idiap_mser::mser_region::merge", "basicimg/src/img_idiap_mser.cpp: img_idiap_mser::doublePool"]}
{"id": "C128", "title": "Idiap detector: reuse", "statement": "A call on an object that has processed other images builds the same trees as a call on a new object.", "quantifier": "all images, any contents of the pool, either or both directions", "why_tests_cant": "All histories of the object.", "anchors": ["basicimg/src/img_idiap_mser.cpp: img_idiap_mser::allocate_memory", "basicimg/src/img_idiap_mser.cpp: img_idiap_mser::extract_pixel"]}
{"id": "C129", "title": "OpenCV 3 detector: the passes end", "statement": "Every pass of img_opencv3_mser ends after at most five steps per pixel, without a null pointer, a division by 0 or an access outside of its buffers.", "quantifier": "all images of 8-bit values, all parameters, any contents of the buffers, dark and bright regions, either or both", "why_tests_cant": "All images; the accesses depend on how the stacks are laid out for the gray values.", "anchors": ["basicimg/src/img_opencv3_mser.cpp: img_opencv3_mser::extract_pixel", "basicimg/src/img_opencv3_mser.cpp: img_opencv3_mser::preprocess", "basicimg/src/img_opencv3_mser.cpp: ConnectedComp::merge", "basicimg/src/img_opencv3_mser.cpp: CompHistory::updateTree"]}
{"id": "C130", "title": "OpenCV 3 detector: regions are components", "statement": "Every reported region is, each pixel once, a connected component of the set of pixels up to (from) a gray value; its size is within the limits, its rectangle is its bounding box, and no region is reported twice.", "quantifier": "all images of 8-bit values, all parameters, dark and bright regions", "why_tests_cant": "Linked lists are joined while histories point into them; all shapes of components.", "anchors": ["basicimg/src/img_opencv3_mser.cpp: CompHistory::checkAndCapture", "basicimg/src/img_opencv3_mser.cpp: ConnectedComp::growHistory", "basicimg/src/img_opencv3_mser.cpp: ConnectedComp::merge", "basicimg/src/img_opencv3_mser.cpp: img_opencv3_mser::extract_pixel"]}
{"id": "C131", "title": "OpenCV 3 detector: variation", "statement": "The variation of every reported region is within the limit: the difference between the component for a gray value higher by delta around it and a component for a gray value lower by at most delta inside of it, divided by its own size.", "quantifier": "all images of 8-bit values, all parameters with delta not negative", "why_tests_cant": "The variation is computed while the tree is still growing, with cached pointers.", "anchors": ["basicimg/src/img_opencv3_mser.cpp: CompHistory::updateTree", "basicimg/src/img_opencv3_mser.cpp: CompHistory::checkAndCapture"]}
{"id": "C132", "title": "OpenCV 3 detector: gray level", "statement": "The gray level reported with a region is one for which the region is a connected component of a threshold set.", "quantifier": "all images, all parameters", "why_tests_cant": "All images.", "anchors": ["basicimg/src/img_opencv3_mser.cpp: CompHistory::checkAndCapture"]}
{"id": "C133", "title": "VLFeat detector: the passes end", "statement": "Every pass of img_vlfeat_mser ends, stays inside of its buffers and does not depend on memory that was never written.", "quantifier": "all images of 8-bit values, all parameters, any contents of the buffers, 4 or 8 neighbours, dark and bright regions, either or both", "why_tests_cant": "All images and all contents of the buffers; the loops follow parent and shortcut links.", "anchors": ["basicimg/src/img_vlfeat_mser.cpp: mser_process", "basicimg/src/img_vlfeat_mser.cpp: mser_recogniztion", "basicimg/src/img_vlfeat_mser.cpp: img_vlfeat_mser::extract_pixel"]}
{"id": "C134", "title": "VLFeat detector: regions are components", "statement": "Every reported region has the gray level of a pixel of the image, and its size is the number of pixels of the connected component, for the configured neighbours, of that pixel in the set of pixels up to (from) this gray level.", "quantifier": "all images of 8-bit values, all parameters, 4 or 8 neighbours, dark and bright regions", "why_tests_cant": "The union-find with shortcuts and heights goes through all orders of joins.", "anchors": ["basicimg/src/img_vlfeat_mser.cpp: mser_process", "basicimg/src/img_vlfeat_mser.cpp: climb", "basicimg/src/img_vlfeat_mser.cpp: img_vlfeat_mser::extract_pixel"]}
{"id": "C135", "title": "VLFeat detector: which regions are reported", "statement": "In the component tree of the image the reported regions are exactly those that have at least min_point pixels and at most the configured part of the image, whose variation is below the limit, which are not beaten by a neighbour one gray level away, and which are not too similar to the nearest reported region around them; each is reported once.", "quantifier": "all images of 8-bit values, all parameters, every component tree of the image", "why_tests_cant": "The selection is a fixed point over the whole tree; all trees.", "anchors": ["basicimg/src/img_vlfeat_mser.cpp: mser_recogniztion", "basicimg/src/img_vlfeat_mser.cpp: img_vlfeat_mser::allocate_memory", "basicimg/src/img_vlfeat_mser.cpp: img_vlfeat_mser::recognize_mser"]}
{"id": "C136", "title": "VLFeat detector: duplicates", "statement": "With duplicate removal a reported region differs from the nearest reported region around it by at least the configured part, and a region is only removed as a duplicate of a reported one.", "quantifier": "all images of 8-bit values, all thresholds between 0 and 1", "why_tests_cant": "All nestings of regions.", "anchors": ["basicimg/src/img_vlfeat_mser.cpp: mser_recogniztion"]}
{"id": "C137", "title": "VLFeat detector: the memory does not matter", "statement": "Two passes over the same image with the same parameters report the same regions, whatever images the object has processed before.", "quantifier": "all images of 8-bit values, all parameters, any contents of the buffers, dark and bright regions, either or both", "why_tests_cant": "All histories of the object and all values of memory that was never written.", "anchors": ["basicimg/src/img_vlfeat_mser.cpp: mser_process", "basicimg/src/img_vlfeat_mser.cpp: img_vlfeat_mser::allocate_memory"]}
{"id": "C138", "title": "Edge detector: which pixels are edges", "statement": "A run of img_canny on a gradient ends without leaving its buffers, and the edge image is 255 exactly at the pixels that are reached, over candidates sharing an edge or a corner, from a candidate above the high threshold, and 0 elsewhere. A candidate is above the low threshold and a maximum along the direction of its gradient.", "quantifier": "all gradients and magnitudes, all thresholds, any contents of the reused buffer", "why_tests_cant": "All images; the tracking follows edges of any length and shape, and the stack grows with them.", "anchors": ["basicimg/src/img_canny.cpp: img_canny::canny_impl"]}
{"id": "C139", "title": "Edge detector: thresholds", "statement": "Raising a threshold never adds a pixel to the edges.", "quantifier": "all gradients, all pairs of thresholds", "why_tests_cant": "All images and thresholds.", "anchors": ["basicimg/src/img_canny.cpp: img_canny::canny_impl"]}
{"id": "C140", "title": "Edge detector: reuse", "statement": "The edge image does not depend on what earlier runs of the same object have left in its buffer.", "quantifier": "all gradients, all thresholds, all contents of the buffer", "why_tests_cant": "All histories of the object.", "anchors": ["basicimg/src/img_canny.cpp: img_canny::canny_impl"]}
{"id": "C141", "title": "Edge detector: inverted images", "statement": "Inverting the gray levels, which changes the sign of both components of the gradient, does not change the edges.", "quantifier": "all gradients, all thresholds", "why_tests_cant": "All images.", "anchors": ["basicimg/src/img_canny.cpp: img_canny::canny_impl"]}
{"id": "C142", "title": "Automatic thresholds: small edges are removed", "statement": "Of an edge of strong pixels, all pixels stay if one of them has at least the magnitude that cannot be removed or the edge has more pixels than the noise threshold; otherwise all are removed. The removal does not leave the image and adds no pixel.", "quantifier": "all edge images, magnitudes and thresholds, edges of every shape and length", "why_tests_cant": "All shapes of edges and all orders in which their pixels are met.", "anchors": ["basicimg/src/img_auto_threshold_canny.cpp: img_auto_threshold_canny::edge_detection", "basicimg/src/img_auto_threshold_canny.cpp: img_auto_threshold_canny::remove_small_edge"]}
{"id": "C143", "title": "Automatic thresholds: following the edges", "statement": "The edge image contains the strong pixels left by the removal and, besides, only pixels found with the lowest threshold that are reached from them over such pixels above the low threshold: all of them for the largest low threshold of a strong pixel, none beyond the smallest.", "quantifier": "all images and all thresholds, which may differ from pixel to pixel", "why_tests_cant": "All shapes of edges; traces starting from different pixels use different thresholds and block one another.", "anchors": ["basicimg/src/img_auto_threshold_canny.cpp: img_auto_threshold_canny::edge_detection", "basicimg/src/img_auto_threshold_canny.cpp: img_auto_threshold_canny::trace_edge"]}
{"id": "C144", "title": "Automatic thresholds: the mean of a cell", "statement": "The windows stay in the image; the number kept for a cell is the number of edge pixels summed over the windows containing the cell, its mean their magnitude divided by that number, its density the number of windows containing it with at least the given number of edge pixels.", "quantifier": "all sizes of images and windows, all edge images and magnitudes", "why_tests_cant": "All sizes, with all remainders of the divisions.", "anchors": ["basicimg/src/img_auto_threshold_canny.cpp: img_auto_threshold_canny::edge_detection"]}
{"id": "C145", "title": "Automatic thresholds: the cell of a pixel", "statement": "The threshold of each pixel is taken from a cell that exists, and the pixel lies in every window that contributed to this cell.", "quantifier": "all pixels of all images, all sizes of windows", "why_tests_cant": "All sizes, with all remainders of the divisions.", "anchors": ["basicimg/src/img_auto_threshold_canny.cpp: img_auto_threshold_canny::edge_detection"]}
{"id": "C146", "title": "Stroke widths from rays", "statement": "A pixel on no ray keeps the invalid width. A pixel on rays gets the smallest width of a ray through it, lowered to the smallest lower median of these widths over the pixels of a ray through it.", "quantifier": "all collections of rays of any length, all widths", "why_tests_cant": "All collections of rays; rays cross and overlap in any way.", "anchors": ["basicimg/src/img_stroke_width_transform.cpp: img_stroke_width_transform::median_stroke_width", "basicimg/src/img_stroke_width_transform.cpp: img_stroke_width_transform::set_ray_width", "basicmath/include/mt_helper.h: mt_helper::median_with_changed_order"]}
{"id": "C147", "title": "Stroke widths: order of the rays", "statement": "The stroke widths do not depend on the order in which the rays were found, nor on a ray found twice.", "quantifier": "all collections of rays, all orders", "why_tests_cant": "All permutations.", "anchors": ["basicimg/src/img_stroke_width_transform.cpp: img_stroke_width_transform::median_stroke_width"]}
{"id": "C148", "title": "Stroke widths as bytes", "statement": "In the normalized image invalid pixels are 255, and only they; of two valid pixels the one with the larger width has the larger byte.", "quantifier": "all images of stroke widths", "why_tests_cant": "All ranges of widths; the scale depends on the image.", "anchors": ["basicimg/src/img_stroke_width_transform.cpp: img_stroke_width_transform::normalize_swt_image"]}
{"id": "C149", "title": "Byte buffer: writing", "statement": "A write puts its bytes at the position of the writer, keeps all other bytes, fills a gap before them with zeros, and moves the position behind them.", "quantifier": "all buffers, positions and blocks of bytes", "why_tests_cant": "All lengths and positions, inside, at and beyond the end.", "anchors": ["basicsys/src/sys_buffer.cpp: sys_byte_buffer_writer::write", "basicsys/src/sys_buffer.cpp: sys_byte_buffer_writer::expand_buffer", "basicsys/src/sys_buffer.cpp: sys_byte_buffer_writer::seek"]}
{"id": "C150", "title": "Byte buffer: what is written is read back", "statement": "Numbers and blocks of bytes written one after the other are read back in the same order with the same values, without an error, and the reader then stands behind them.", "quantifier": "all sequences of numbers of any size and blocks of any length, after any contents of the buffer", "why_tests_cant": "All sequences of values.", "anchors": ["basicsys/src/sys_buffer.cpp: sys_byte_buffer_writer::write", "basicsys/src/sys_buffer.cpp: sys_byte_buffer_reader::read"]}
{"id": "C151", "title": "Byte buffer: reading at the end", "statement": "A read of more bytes than remain reports the end and changes nothing else; any other read returns the bytes at the position and moves behind them.", "quantifier": "all buffers, positions and sizes", "why_tests_cant": "All positions and sizes.", "anchors": ["basicsys/src/sys_buffer.cpp: sys_byte_buffer_reader::read", "basicsys/include/sys_buffer.h: sys_buffer_reader::remain_size"]}
{"id": "C152", "title": "Byte buffer: strings", "statement": "A string that was written is read back unchanged.", "quantifier": "all strings, after any contents of the buffer", "why_tests_cant": "All strings.", "anchors": ["basicsys/src/sys_buffer.cpp: sys_byte_buffer_writer::write", "basicsys/src/sys_buffer.cpp: sys_byte_buffer_reader::read_str"]}
{"id": "C153", "title": "Text buffer: writing and reading", "statement": "A text written at a position is found there when it is read back, and the text elsewhere is kept.", "quantifier": "all texts and positions", "why_tests_cant": "All lengths and positions.", "anchors": ["basicsys/src/sys_buffer.cpp: sys_string_buffer_writer::write", "basicsys/src/sys_buffer.cpp: sys_string_buffer_reader::read_str"]}
{"id": "C154", "title": "Text buffer: characters and lines", "statement": "Reading a character returns the one at the position and moves behind it; reading a line returns the text up to the end of the line.", "quantifier": "all texts and positions", "why_tests_cant": "All texts; that a loop never ends cannot be observed by a test.", "anchors": ["basicsys/src/sys_buffer.cpp: sys_string_buffer_reader::read_char", "basicsys/src/sys_buffer.cpp: sys_string_buffer_reader::read_line"]}
{"id": "C155", "title": "Inserting a five", "statement": "add_five gives the largest number that arises when a digit 5 is inserted somewhere into the digits of the given number, before or after a digit, keeping its sign.", "quantifier": "all numbers of i32", "why_tests_cant": "Billions of numbers, each with all places of insertion.", "anchors": ["basicmath/src/mt_helper.cpp: mt_helper::add_five"]}
{"id": "C156", "title": "Removing a character", "statement": "max_lexi_order removes one character of a text such that no other removal gives a text that comes earlier in lexicographic order (the order its test asks for).", "quantifier": "all texts with a character", "why_tests_cant": "All texts and all removals.", "anchors": ["basicmath/src/mt_helper.cpp: mt_helper::max_lexi_order"]}
{"id": "C157", "title": "Counting the digit one", "statement": "one_number gives how often the digit 1 occurs in the decimal numbers from 0 to its argument.", "quantifier": "all arguments of u32", "why_tests_cant": "Billions of arguments; that a loop never ends cannot be observed by a test.", "anchors": ["basicmath/src/mt_helper.cpp: mt_helper::one_number"]}
{"id": "C158", "title": "Random integers", "statement": "random_next_i32 gives a number between its arguments, both included, and each of these numbers can occur.", "quantifier": "all ranges, all values of rand() and of RAND_MAX", "why_tests_cant": "A random number is tested for few values and ranges, on one system.", "anchors": ["basicmath/src/mt_random.cpp: mt_random::random_next_i32"]}
{"id": "C159", "title": "Comparing integers", "statement": "compare_value gives 0 for equal values, 1 when the first is larger and -1 when it is smaller.", "quantifier": "all integer types and all their values", "why_tests_cant": "All pairs of values of all types.", "anchors": ["basicmath/include/mt_helper.h: mt_helper::compare_value"]}
{"id": "C160", "title": "Derivatives of recorded computations", "statement": "For a computation recorded from copies, sums, differences, products, quotients and powers, derivative(target, source) gives the derivative of the source as a function of the target at the recorded values, however the steps are shared and whatever derivatives of the source have been asked for before.", "quantifier": "all computations of these steps of every size, all values without division by zero, all targets, sources and earlier requests", "why_tests_cant": "Computations of every shape and real values; a test compares some derivatives with finite differences.", "anchors": ["basicmath/src/mt_auto_derivative.cpp: mt_auto_derivative::derivative", "basicmath/src/mt_auto_derivative.cpp: mt_auto_derivative::find_node_in_parent", "basicmath/src/mt_auto_derivative_tree.cpp: mt_ad_dot_tree_node::derivate_child_on_operation", "basicmath/src/mt_auto_derivative_tree.cpp: mt_ad_div_tree_node::derivate_child_on_operation", "basicmath/include/mt_auto_derivative_tree.h: mt_ad_subtract_tree_node::derivate_child_on_operation", "basicmath/include/mt_auto_derivative_tree.h: mt_ad_pow_tree_node::derivate_child_on_operation"]}
{"id": "C161", "title": "Empty derivatives", "statement": "derivative(target, source) always ends, and it gives an empty array exactly when the source does not depend on the target.", "quantifier": "all computations of the steps of C160 of every size, all targets, sources and earlier requests", "why_tests_cant": "Dependence over chains of every length and shape.", "anchors": ["basicmath/src/mt_auto_derivative.cpp: mt_auto_derivative::derivative", "basicmath/src/mt_auto_derivative.cpp: mt_auto_derivative::find_node_in_parent"]}
{"id": "C162", "title": "Several sources", "statement": "derivative(targets, sources) gives for each target the sum of the derivatives of all sources by it.", "quantifier": "all lists of targets and sources", "why_tests_cant": "All numbers of targets and sources; the defect needs two sources.", "anchors": ["basicmath/src/mt_auto_derivative.cpp: mt_auto_derivative::derivative"]}
{"id": "C163", "title": "Derivatives of logarithm and exponential function", "statement": "The derivative by the argument of a recorded logarithm (to any base) or exponential function is given on by the chain rule.", "quantifier": "all bases, arguments and functions of the result", "why_tests_cant": "Real arguments and bases; the default base hides the defect.", "anchors": ["basicmath/src/mt_auto_derivative_tree.cpp: mt_ad_log_tree_node::derivate_child_on_operation", "basicmath/include/mt_auto_derivative_tree.h: mt_ad_exp_tree_node::derivate_child_on_operation"]}
{"id": "C164", "title": "Arrays from the cache", "statement": "An array from mt_mat_cache::get shares its memory with no array in use, and its memory was made for the sizes and the type asked for, whatever arrays were requested, copied and dropped before and whether the cache is on or off.", "quantifier": "all sequences of requests, copies, drops, switches and limits; one thread", "why_tests_cant": "Sequences of every length; an alias shows only as data that changes later.", "anchors": ["basicmath/src/mt_mat_cache.cpp: mt_mat_cache::get", "basicmath/src/mt_mat_cache.cpp: mt_mat_cache::enable_cache", "basicmath/src/mt_mat_cache.cpp: mt_mat_cache::statistic_memory"]}
{"id": "C165", "title": "Memory of the cache", "statement": "Whenever the cache has taken in a new array or its limit has been set, its arrays need at most the limit, or at most twice the memory of those in use.", "quantifier": "all sequences of requests, copies, drops, switches and limits; one thread", "why_tests_cant": "Sequences of every length and sizes up to gigabytes.", "anchors": ["basicmath/src/mt_mat_cache.cpp: mt_mat_cache::statistic_memory", "basicmath/src/mt_mat_cache.cpp: mt_mat_cache::set_memory_size", "basicmath/src/mt_mat_cache.cpp: mt_mat_cache::get"]}
{"id": "C166", "title": "Reuse of arrays", "statement": "While the cache is on, a request makes a new memory exactly when no cached array of these sizes and type is free; arrays in use are never removed from the cache by a request; an array dropped after a request serves the next equal request.", "quantifier": "all sequences of requests, copies, drops, switches and limits; one thread", "why_tests_cant": "Sequences of every length; making a memory is not visible in results.", "anchors": ["basicmath/src/mt_mat_cache.cpp: mt_mat_cache::get", "basicmath/src/mt_mat_cache.cpp: mt_mat_cache::statistic_memory"]}
{"id": "C167", "title": "Cache and threads", "statement": "Threads that request arrays at the same time get different memories (the class says it is thread safe).", "quantifier": "all interleavings of the searches of two threads", "why_tests_cant": "Interleavings are not under the control of a test.", "anchors": ["basicmath/src/mt_mat_cache.cpp: mt_mat_cache::get"]}
{"id": "C168", "title": "Histograms", "statement": "mt_hist::hist divides the range of the data into equal bins and counts the data in each; every number is counted in exactly one bin.", "quantifier": "all data and numbers of bins, with exact arithmetic", "why_tests_cant": "All lists of numbers of every length, including negative ones.", "anchors": ["basicmath/src/mt_hist.cpp: mt_hist::hist"]}
{"id": "C169", "title": "Splitting by means", "statement": "split_array_to_max_mean_sub_arrays splits the numbers into two parts such that no other split has a larger difference of the means.", "quantifier": "all lists of at least two numbers and all their splits", "why_tests_cant": "Exponentially many splits of lists of every length.", "anchors": ["basicmath/src/mt_helper.cpp: mt_helper::split_array_to_max_mean_sub_arrays"]}
{"id": "C170", "title": "Ships on a board", "statement": "battle_ship counts the ships of which all cells are hit, and the ships of which some but not all cells are hit.", "quantifier": "all lists of ships and hits on boards of every size, corners in any order", "why_tests_cant": "All positions of ships and hits.", "anchors": ["basicmath/src/mt_helper.cpp: mt_helper::battle_ship"]}
{"id": "C171", "title": "Gaussian kernels", "statement": "generate_gaussian_kernel makes the Gaussian kernel of the given size and sigma: positive elements of sum 1 in the ratio of the Gaussian function, symmetric for odd sizes, and largest in the middle.", "quantifier": "all sizes and all sigmas that are not negative", "why_tests_cant": "Real sigmas and all sizes; a kernel of NaN spoils a whole image.", "anchors": ["basicimg/src/img_img.cpp: img_img::generate_gaussian_kernel", "basicimg/src/img_img.cpp: img_img::gaussian_blur"]}
{"id": "C172", "title": "Kernels of blurring", "statement": "gaussian_blur uses a horizontal kernel with the width and a vertical kernel with the height and the sigmas asked for.", "quantifier": "all sizes and sigmas", "why_tests_cant": "All pairs of sizes; square kernels hide the defect.", "anchors": ["basicimg/src/img_img.cpp: img_img::gaussian_blur"]}
{"id": "C173", "title": "Values of a convolution", "statement": "For arrays of one dimension, conv with boundary valid, full or same and any stride gives the sum of the products of the kernel with the signal in reverse order: with full from the first overlap, with valid only complete overlaps, with same as many results as elements and the kernel centred; result i is element i*stride. It has a result for all non-empty signals and kernels, except valid with a kernel longer than the signal.", "quantifier": "for all signals, kernels, strides and boundary treatments", "why_tests_cant": "The sizes and starts are computed with halves and quotients; tests use a few sizes of the kernel, even and odd, but not all combinations with strides.", "anchors": ["basicmath/src/mt_convolution.cpp: mt_mat::conv"]}
{"id": "C174", "title": "Channels of a convolution", "statement": "With the alignments row and column each channel of the kernel is used for exactly one pair of an input channel and an output channel, and no channel outside the kernel is read; with the crossed alignments the output channels are in one to one relation with the pairs of an input channel and a kernel channel.", "quantifier": "for all numbers of input channels, output channels and kernel channels", "why_tests_cant": "A wrong index is the right one for one channel, or when both numbers are equal; only a proof covers all numbers.", "anchors": ["basicmath/src/mt_convolution.cpp: private_convolution::conv"]}
{"id": "C175", "title": "Pooling with largest and smallest values", "statement": "For arrays of two dimensions with one channel, every result of a pooling with type max or min is a value of its window in the source that no other value of the window exceeds (is below); the mask holds the first place by rows with that value, and a pooling with type index and this mask gives the same values.", "quantifier": "for all arrays, sizes of windows and strides of at least 1, all results", "why_tests_cant": "Windows that reach over the end, equal values and places that are coded in one number; tests cover a few shapes.", "anchors": ["basicmath/src/mt_pooling.cpp: pooling_2d_channel_1"]}
{"id": "C176", "title": "Pooling with sums, means and first values", "statement": "For arrays of two dimensions with one channel, every result of a pooling with type sum, mean or first value is the sum, the mean or the first value of the elements of its window that are in the source; the mean never divides by zero.", "quantifier": "for all arrays, sizes of windows and strides of at least 1, all results", "why_tests_cant": "Windows that reach over the end have fewer elements; a test with divisible sizes does not see them.", "anchors": ["basicmath/src/mt_pooling.cpp: pooling_2d_channel_1"]}
{"id": "C177", "title": "Unpooling", "statement": "unpooling brings the results of a pooling of any type back to the source: means are shared equally by the elements of the window, first values go to the first place of the window, largest and smallest values to the place in the mask; elements in several windows get the sum.", "quantifier": "for all types of pooling, results, sizes of windows and strides of at least 1", "why_tests_cant": "The sum over overlapping windows is a statement about all results; and the failure for masks concerns all masks.", "anchors": ["basicmath/src/mt_pooling.cpp: mt_mat::unpooling, unpooling_2d_channel_1"]}
{"id": "C178", "title": "Horizontal distance of rectangles", "statement": "horizontal_dist of two rectangles with columns is the smallest distance of a column of the one and a column of the other: zero if they share a column; it does not depend on the order.", "quantifier": "for all rectangles with a positive width", "why_tests_cant": "All relative positions: left, right, overlapping, contained, equal left sides.", "anchors": ["basicmath/include/mt_rect_t.h: mt_rect_t::horizontal_dist"]}
{"id": "C179", "title": "Normal form of a rectangle", "statement": "normlized gives a rectangle with sizes that are not negative and the same rows and columns at its sides; a size of zero stays zero; applied again it changes nothing.", "quantifier": "for all rectangles", "why_tests_cant": "The wrong result needs one negative size together with a size of zero.", "anchors": ["basicmath/include/mt_rect_t.h: mt_rect_t::normlized"]}
{"id": "C180", "title": "Angles in one turn", "statement": "normlize_angle gives the equivalent angle from 0 up to but without 360.", "quantifier": "for all angles in degrees", "why_tests_cant": "It holds for the usual angles; a proof finds exactly the angles for which it fails: 360 and those of further turns.", "anchors": ["basicmath/include/mt_angle_helper.h: mt_angle_helper::normlize_angle"]}
{"id": "C181", "title": "Softmax", "statement": "activate with softmax gives for each row the exponentials of the elements in relation to their sum; the results are positive with sum 1; no exponent is above zero and the divisor is at least 1, so nothing overflows and no division by zero occurs.", "quantifier": "for all rows with at least one element, exact arithmetic", "why_tests_cant": "The statement about exponents and divisor concerns all rows, also those with large values, equal values or one element.", "anchors": ["basicmath/src/mt_mat_math_operation.cpp: private_math_operation::softmax"]}
{"id": "C182", "title": "Quadratic loss", "statement": "loss with the quadratic type gives for each channel half the sum of the squared differences of all elements and their matching elements, where those are numbers; it accesses only elements of the arrays and does not depend on former contents of memory.", "quantifier": "for all arrays of all dimensions and channels", "why_tests_cant": "The accesses outside show no effect in a test unless the memory is watched; memory is often zero.", "anchors": ["basicmath/src/mt_mat_math_operation.cpp: private_math_operation::quardratic_loss"]}
{"id": "C183", "title": "Reducing a dimension", "statement": "reduce along a dimension gives for each line the sum, the mean, the largest or smallest element, or the mean squared distance from the mean; with the unbiased type it divides by one less, for at least two elements.", "quantifier": "for all lines with at least one element, exact arithmetic", "why_tests_cant": "All lengths and values, also negative ones only.", "anchors": ["basicmath/src/mt_mat_math_operation.cpp: private_math_operation::reduce"]}
{"id": "C184", "title": "Every n-th element", "statement": "sub_stride shows exactly the elements of an array whose indices are multiples of the strides, in the same memory: element (i, j, ...) is element (i*s, j*t, ...) of the array.", "quantifier": "for all arrays of any number of dimensions, with any steps, and all strides of at least 1", "why_tests_cant": "All sizes and strides, also those that do not divide the size, for views with any steps.", "anchors": ["basicmath/src/mt_mat_math_operation.cpp: mt_mat::sub_stride"]}
{"id": "C185", "title": "A border around an array", "statement": "expand gives a new array of the same type whose sizes are the old ones plus both sides; the element (i, j, ...) is found at (i+p, j+q, ...) for first sides p, q, ...; every other element holds the given channel values; nothing outside the new memory changes.", "quantifier": "for all arrays of any number of dimensions, with any steps, and all sides of at least 0, missing sides counting as 0; integer depths, channel values in the range of the type", "why_tests_cant": "All sizes, sides, channels and steps at once, and the memory next to the array.", "anchors": ["basicmath/src/mt_mat_math_operation.cpp: mt_mat::expand"]}
