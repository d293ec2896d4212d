# Design

Subject: mmmn143/fast-mser (C++), read as text from /repo. Nothing is compiled or run.
The theorems are about the Lean model in `lean/Verif`; the tie to the C++ is the
file/line citation carried by every model definition.

## Layout

* `Verif/Spec/*`  – specifications, written without any model helper (level connectivity,
  bounding boxes, subset sums, ...).
* `Verif/Model/*` – the model, function by function, with `/repo` citations.
* `Verif/Proof/*` – invariants and helper lemmas.
* `Verif/Props/*` – the property theorems (and nothing else), each followed by an
  `example` showing that a non-trivial case meets its hypotheses.

## Modelling decisions

* Pixels of a patch are the indices of the padded `(w+2)*(h+2)` array, as in the code
  (`points + dir[k]` is index arithmetic). The padding cells are the `m_boundary_pixel` cells.
* The packed word `*points` (direction counter in the top bits, region index below) is kept
  as two components; the packing itself is treated by separate bit-vector lemmas.
* The shared heap array is modelled twice: as per-level stacks (used for the flooding proof)
  and as the flat array with stack pointers and sentinels (a refinement theorem links them).
* `mser_region*` pointers are region identifiers (patch index, er index); `NULL` is `none`.
  Pointer loops (`get_real_for_merged`) take fuel; theorems show that enough fuel always exists.
* Floating point: every `f32`/`f64` result is an exact rational followed by a rounding function of which only
  monotonicity, symmetry and non-vanishing of quotients of 31-bit integers is assumed (`Spec.Rounding`).
* OpenMP loops: recognition is modelled as an arbitrary interleaving of single memory accesses (C24); the
  joins of disjoint quadrants commute (C13). Elsewhere loops are sequential.
* Undefined behaviour (out-of-range index, invalid shift) is an explicit outcome of the model
  function where a property is about it.

## Properties: what is modelled and how it is proved

| id | model | proof |
|----|-------|-------|
| C01–C05 | flooding state machine of `make_tree_patch` | invariant over all steps + measure; padded grid instance |
| C06, C07 | `Model/FloodMem` (flat heap, packed words), `Model/Process` (`process_tree_patch`) | simulation of the flat machine by the abstract one; counting invariant: waiting pixels are distinct and visited; slices of all patches fill the arrays exactly (`Proof/Alloc`) |
| C08 | depth of the component stack | **violated**: sentinel + 256 levels need 257 of 256 entries; negation with witness, `_partial` for < 256 gray values |
| C09–C11 | `Model/Connect` (`connect` 607–655, `get_real_for_merged`) on a region forest | invariant of the two-chain walk; measure on gray levels |
| C12, C13 | patches + joins (`Model/Partition`) | composition of C01 and C09 over the list of border adjacencies; joins on disjoint patches commute exactly (state equality), any order gives the same tree |
| C14, C15 | partition arithmetic, join schedule | arithmetic; finite tables lifted to all sizes |
| C16 | `Model/Eight` (8-neighbour configuration of V2) | **violated**: the tour stops after 4 of the 8 directions (all on the row or above), so rows below the first are never reached; and the region index mask is the 4-neighbour one. Negation + `_partial` for one-row images |
| C17 | `process_tree_patch` | XOR/255-complement and histogram reversal |
| C46 | `process_tree_patch` with dark extraction disabled | **violated**: histogram of raw values, flood on inverted values; every all-black image of at least 2x2 overruns the heap. `_partial` for symmetric histograms |
| C18–C23 | `Model/Recognize`: the three recognition functions (1, 4 and 32 threads), `calculate_variation`, gray ordering, `get_duplicated_regions` | `Spec/Stable` and `Spec/Group` say what is selected and how near-equal regions are grouped; loop invariants (`Proof/Recog*`) show that each function computes exactly that, on any tree left by joining (`Held`); `Props/Whole` composes flooding, joining and recognition for images. Out-of-range writes to the order array or heap slice, null dereferences and endless chases are the outcome `none`, which the theorems exclude |
| C24 | `Model/Concurrent`: the worker loops of the 32 and the 4 thread variants, one shared memory access per step, any schedule of any number of threads | each region is written only by the thread of its patch; what a thread reads elsewhere is constant or a link that resolves to the same live region. Invariant per thread (`Good`), a step bound, and equality of the memory at the barrier with the memory the sequential model leaves. Memory is taken to be sequentially consistent: the C++ standard calls the unsynchronised reads of `m_parent` and of the flag word a data race |
| C25, C26 | `Model/Extract`: `extract_pixel_parallel_4_acceleration` loop by loop, and the decoder of `img_mser_helper.cpp` | a `Plan` fixes which record contains which and where everything lies in the point array; each loop is shown to establish its part of the layout (`Proof/Extract*`), the decoder visits exactly the plan's points; `Props/Extract` composes with flooding, joining and recognition. Array accesses out of range and reads of cells never written are the outcome `none` |
| C27 | rectangles in `Model/Extract` | **violated** (right and bottom side, `else if` in 1990–2003): 6x2 witness; `_partial`: left/top exact, right/bottom attained, exact for regions in one patch (`Proof/ExtractRect`) |
| C28 | `m_gray_level` in `Model/Extract` | **violated** for bright regions: line 1879 overwrites the corrected level; wrong for every bright region. `_partial` for dark regions |
| C29 | patch table of extraction | **violated** for 1 thread (access out of range for every non-empty result) and 32 threads (patches 4..31 do not influence the result); four threads are C25 |
| C30, C62, C64 | `Model/FloodV1`, `Model/GridV1`: V1 flooding with its point lists, rectangles, flags and side tables; `Model/ConnectV1`: `connect`, `disconnect` and the macros on regions, points and `m_merged_points`; `Model/MergeV1`: side tables, sorting of the joins, join schedules for 2 to 32 threads, `build_tree` | flooding: lockstep simulation with the V2 flood plus an invariant that gives every region a list of points (linked, ending in `m_head`/`m_tail`, infix of the parent's list). Joining: the same loop invariant as C09 for the parents, and an invariant for the lists that says which pieces are cut off, which sizes are still to be subtracted and how `m_ref` chains lead from a stored tail to the real one. Schedules: counting sort is a permutation; borders are visited once. Together: the tree of the whole image with its lists |
| C65 | as C64 | the general theorem gives the tree of the graph that is 8-adjacent inside patches and 4-adjacent across borders. **Violated** for several threads: a 2×2 image whose dark pixels touch at a corner |
| C66 | as C64 | **Violated**: `index / p_height` and `index / p_width` with a patch extent of 0 (8, 16, 32 threads). Larger images: the whole construction ends |
| C67 | `Model/RecognizeV1`: V1's duplicate removal; the rest of recognition is as in `Model/Recognize` | for thresholds below 3/5 two unrelated regions cannot both be near a common ancestor (sizes add up), so V1's loop finds the same groups as V2's (`Proof/RecogV1`); composed with flooding and joining. **Violated** for threshold 2: a tree of five regions of which one is reported twice |
| C68, C69 | `Model/ExtractV1`: search for outermost reported regions, division among threads, copying of the point lists, records, reader | the list of a reported region is an infix of the concatenated lists of the outermost ones (C30), so head and tail indices delimit it. No overrun of the region array: outermost regions do not touch, so on a path through all pixels they are separated (`Proof/Snake`). **Violated**: C68 for 4 threads and more and very small regions (seven dots), C69 always |
| C70 | everything from flooding to duplicate removal, V2 and V1 | with a threshold below 2/5 a group only takes regions of less than twice the size of its first member, while unrelated regions add up below a common ancestor: groups of unrelated regions do not compete. Then the groups do not depend on the order of the candidates (`Proof/GroupOrder`, moving a candidate past unrelated ones; chains are listed in one way only), and the trees are the same (C12, C64). **Violated** for threshold 2: in an 8×4 image two dark pixels lie in patches whose order differs between 4 and 32 threads (`Props/ThreadsMatter`) |
| C71–C73 | `Model/Linear`: `img_linked_linear_mser` up to the end of `extract_pass`: packed image words, heap with one stack per level, components, regions, point lists | step-by-step simulation by the V1 flooding machine (`Proof/LinearFlood`) for 257 levels; the simulation relates only used entries, so one run of V1 serves for all buffer contents (C73). C72 **violated**: `pre_process_image` has no branch for a mask rectangle, and none for a mask value in the dark pass |
| C74–C78 | `Model/LinearRecog`: `recognize_mser` of the linear detector; `Model/LinearExtract`: `extract_pixel_share_memory`, the reader | C74: the selection loops are those of V2 without merged regions (`Proof/LinearRecog`), so the specification of C21–C24 applies to the tree of C71. C75: for any forest of bounded depth recognition ends and reports regions with a parent, each once (`Proof/LinearLoose`); the copying loop fills consecutive cells (`Proof/LinearExtract`); every pixel lies in at most 256 reported regions, so the `i32` size does not overflow below 2²³ pixels. C76: as C70. C77 **violated** for mask values in the dark pass and for rectangles. C78 **violated**: the root of a masked image has level 256, which is stored as 0 in a byte; `calculate_variation` climbs into it and finds no stability value (three pixels 10, 11, masked) |
| C79–C82 | `Model/Original`: `img_original_mser` with `allocate_memory`, `extractPass`, `build_tree`, `resetPreInfo`, `reversePixelValue`; `Model/OriginalRecog`: `recognize_mser`, `calculateStableVariantion`, `getDuplicatedRegions`, `extract_pixel`, `clear_memory_cache`, `extract`. Pointers into a vector whose elements are moved become indices that no element has | C79: invariant of the flooding with path-compressed shortcuts (`Proof/OriginalBase`–`OriginalFlood`): every region's pixels are a segment of the list of its root, roots are the components of the pixels seen so far, merged regions share level and root; `Proof/OriginalTree` turns this into the component tree. C81, C82: recognition over the index order (`Proof/OriginalRecog`); the invalid counter is exact, so the record array has no gaps. C80 **violated**: `allocate_memory` clears `m_regions` only if the number of pixels is unchanged |
| C83–C85 | Model/Original, Model/OriginalRecog, and the models of V1, V2 and the linear detector | C83: without a mask the neighbourhood of `AdjIn` is `Adj4`/`Adj8`; a region without parent has all pixels (`root_all`), so `Admitted` and `Selected` coincide if the largest size is below the size of the image, and `same_report` compares any two detectors that report the groups of one component tree. `C83_whole_image` is the difference otherwise. C84: `allocate` gives equal states (`allocate_congr`); no masked pixel from C82. C85: a simulation, all functions commute with moving the coordinates of the points (Proof/OriginalShift). |
| C86, C87 | `Model/Ms`: `img_ms_mser` with `allocate_memory`, `pre_process_image`, `build_tree`, `recognize_mser_normal`, `remove_duplicated`; flooding is the shared `Flood`/`FloodMem` model with the directions in the order of this file | C86: the flooding invariant of C27/C74 is generic in the neighbour order; the heap may hold anything at the start of the second pass because `extract_pixel` uses it as a table. The four situations in which the code is wrong have a theorem each. C87: `recognizeM_spec` from the loops shared with the linear detector, then the same `Result` as for the other detectors. |
| C88, C89 | `Model/MsExtract`: `img_ms_mser::extract_pixel` in its three modes, and the cases `Self`, `Share` and `Recursive` of `image_from_mser` to read records back; regions are `(0, r)` so that the loops over parent chains are those of V2's model | the plan of record contents is the one of C25 (`Plan`); `MsLayout` gives every record an area of an array, `MsFinish` shows by induction over the loops that filling and collecting stay inside the areas, `MsPrep` that the preparing loops set the areas up, `MsTree` connects to recognition. Room: a pixel lies in at most 256 regions, so all records together need at most 512 points per pixel. C89 from `same_report` as C76 and C83. |
| C90 | `Model/Draw`: `img_mser_helper::image_from_mser` up to the final resize, with its bounds test | induction over the points with the set of points drawn so far; which records have the right rectangle is C68 (V1), C75 (linear), C88 (ms). Violated for V2 with several threads (`C90_v2_false`): the rectangle of C27 is too small and pixels are lost. |
| C91 | `Model/Draw`: `genarate_chessboard`, one row as a fold with the toggled colour | induction along the row. |
| C92–C96 | `Model/OpenCv`: `img_opencv_mser` with `allocate_memory`, `preProcessImage`, `extractPass`, `initComp`, `newHistory`, `mergeComp`, `calculateVariation`, `isStable`, `accumulateComp`, `toMSERInfo`. The packed cell words become three functions, the boundary heap one stack per level; the value of the never assigned `m_step_gap` is a parameter | `Proof/OpenCvFlood`: lockstep with the flooding of V2, whose invariant is reused; `CSim` ties the linked list of a component to the pixels of its region, `HistI` bounds the chains of histories (short cuts lead back along children). `Proof/OpenCvGrid`: the padded image with rows of length 2^k. C96 (`Proof/OpenCvReuse`): two runs agree on all entries written so far. **Violated**: C92 (a history created when the lower component is the larger one has the size of an incomplete component), C93 (both inversions are on the wrong branch; the level of the component is reported with the points of its history), C94 and C95 (`m_step_gap`). `calculateVariation` never takes the latest history itself, which is modelled but not part of a property. |
| C97–C102 | `Model/Mat`: `mt_mat` as a base address, sizes and byte steps, depth and channels; `ptr`, `sub`, `row`, `col`, `plane`, `index`, `front`, `back`, `flip`, `swap_dimension`, `t`, channels, `create`. `Spec/Mat`: indices, `MatView` (what a view shows), `MatHas` (bytes of an array), `MatApart` (no byte shared) | `Proof/MatView`: an address is base plus the sum of index times step; row-major rank is a bijection between indices and 0…count−1, which gives C102. `MatView` implies that nothing outside the original is reachable and that elements stay apart. **Violated**: C97 (negative starts accepted, more than four dimensions use freed memory), C98 (`plane` cuts dimension 2 instead of 0), C99 (`flip(size, dims)` clears only `size` flags) |
| C103–C112 | `Model/MatCopy`: memory as a partial function from addresses to bytes; `set(other)`, `clone`, `set(value)`, `is_zero`, `operator==`, the element iterator, `memory_data`, `reshape`, `split_dim`, `combine_dim`, `decrease_dim`; accesses outside of live memory give `none`. `Spec/Mat`: `MatLive`, `MatDisjoint`, `matNat` (value of the bytes of an element) | `Proof/MatRun`: an array is called continuous exactly when its steps are those of a new array up to sign; the iterator is the odometer of row-major places. `Proof/MatCopy`, `Proof/MatEq`: every path of a copy or comparison is a list of pairs of addresses, and is right if that list is, as a set, the pairs of corresponding bytes. **Violated**: C103 (sizes of 1), C105 (empty arrays: endless), C106 (different types), C108 (three dimensions with over four channels; negative `i8`; scalars with over four channels), C109 (types of more than one byte), C110 (three or four dimensions with gaps; different numbers of dimensions), C111 (flipped arrays), C112 (combining with gaps; removing a later dimension) |
| C113–C115 | `Model/MatCopy` (`get_index`), `Model/MatMerge`: index iterator, `repeat`, `merge_align_channel`, `merge_align_dim` as sequences of `set` on parts of the new array | C113: the loop invariant is that the rest of the offset is the sum over the dimensions not yet divided out, which is less than the next step. C114, C115: the parts are views of the new array with disjoint images (`tiles_spec`), so each `set` keeps what the others wrote. **Violated**: C113 (equal steps after `t()` of a column), C115 (different sizes in the joined dimension) |
| C116–C119 | `Model/Strings`: `split`, `replace`, `trim_left`, `levenshtein_distance` of `sys_strhelper` over lists of characters | C116, C117: the pieces between occurrences are unique (`pieces_unique`), the loops deliver them. C119: the rows of the table hold the lowest price (`Spec/Strings.EditDistance`, defined by sequences of changes) of the beginnings. **Violated**: C116 (tags longer than 1; empty tag), C117 (empty old text never ends), C119 (insert and delete exchanged; empty words; table entries of one byte) |
| C120, C121 | `Model/Strings`: `sys_path` names | the position found by `rfind` is that of the last separator or dot. **Violated**: paths without separator, dots in folder names |
| C122–C124 | `Model/DataType`: type words and names, `get_conv_result_size`, `get_pooling_result_size` | decimal form read back by induction; sizes as counts of places. **Violated**: C123 (kernel larger than the source) |
| C125, C126 | `Model/Json`: binary writer with its stack of open groups and back-patched sizes over a byte buffer, the loading of one level, integers through `f64` | running the calls for a tree appends its bytes and restores the stack (induction over the tree); loading the bytes finds the nodes, sizes lead from one to the next. **Violated**: C125 (`m_loaded` is never initialised: modelled as an arbitrary value `junk`; brackets as texts), C126 (unsigned values in the upper half: the cast of a negative double is undefined; more than 53 digits). Real numbers are bytes only; the text form and files are not modelled |
| C127, C128 | `Model/Idiap`: `extract_pixel`, `processStack`, `merge`, growing of the pool, the neighbours of `img_idiap_mser`, both passes of a call | lockstep simulation with the flooding of V2 (`Proof/IdiapFlood`), transfer from indices to coordinates (`Proof/IdiapGrid`). **Violated**: C127, the search for the next level tests `boundaryPixels[priority].empty()` before `priority < 256`; proved for every image of two or more pixels (`not_C127_inside`) and, with the conditions exchanged (`fixed`), that all is well. Moments and `process`/`check`/`save` are not modelled: what they select is dropped, the lines that hand it out are commented out (456–485), so that `extract` of this detector never reports a region, and the mask is ignored |
| C129–C132 | `Model/OpenCv3`: `img_opencv3_mser`: histories, `updateTree`, `checkAndCapture`, `growHistory`, `merge` (with the exchange of its arguments), `preprocess` with the layout of the stacks, `extract_pixel` | lockstep simulation with the flooding of V2 (`Proof/OpenCv3Flood`, `OpenCv3Finish`); invariant `FI` between the forest of histories, the linked lists and the components: every closed history owns a segment of a list that is a whole component for all levels up to its parent's (`Proof/OpenCv3Hist`, `OpenCv3Grow`); `updateTree` is shown to end, to use no null pointer and to store the variation its comment promises although the tree is still growing (`Proof/OpenCv3Tree`); statements in coordinates against `Spec/Interior` (`Proof/OpenCv3Grid`). **Violated**: bright regions alone (`not_C129_bright_only`, `not_C130_bright_only`), images of one row (`not_C129_small`), border (`not_C130_border`), gray level (`not_C132_level`). The mask is ignored by this detector. Not proved: which regions the comparison with neighbouring levels removes |
| C133–C137 | `Model/VlFeat`: `img_vlfeat_mser`: sorting of the pixels and its reversal for the second pass, the forest with `climb`, shortcuts, heights and `joins`, extraction and linking of the extremal regions, `mser_recogniztion` (variation, neighbours one level away, size limits, duplicates), `extract_pixel` (gray level and size; pixels and rectangles are not reported by the code, the mask is ignored) | counting sort is a sorted permutation, its reversal sorts the inverted image (`Proof/VlFeatSort`); `climb` returns the root and keeps a distance that bounds the shortcuts (`VlFeatClimb`); invariant of the forest: the trees are the connected components of the pixels entered, whatever the heights are (`VlFeatForest`, `VlFeatRun`); the regions extracted form the component tree (`VlFeatTree`), carried over to pixels (`VlFeatGrid`); the loops of the recognition compute the specification `IsReport` of `Spec/Report`, which is shown to determine the report (`VlFeatRecog`, `ReportSame`). `Spec/Float32` is binary32 rounding for the witness. Assumed of `f32`: `Rounding`. Leaks on reallocation are not modelled. **Violated**: unwritten height read (`not_C133_unwritten`), two columns with 4 neighbours (`not_C134_two_columns`), rounded size limit (`not_C135_rounded`), duplicate of an unreported root (`not_C136_root`) |
| C138–C141 | `Model/Canny`: `canny_impl` of `img_canny`: the ring of three rows of magnitudes, the test for a maximum along the gradient in 15-bit fixed point (overflow of `i32` is an outcome), the map with its borders, the stack with its growth (a write behind it is an outcome), the tracking, the edge image; gradient and magnitude are inputs, converted to integers | `Spec/Edge`: candidates, reachability from strong candidates, with the magnitude extended by 0. Invariant of the scan (`Proof/Canny`: every scanned strong candidate is reached from a pixel on the stack, at most one push for two columns), invariant of the tracking with the number of zeros as measure (`Proof/CannyTrack`). **Violated**: C138, `maxsize` grows once by a half for each row, which is less than the pushes of a wide row: a heap overflow with 1 × 4000 pixels; for images with 11 or more rows or up to 1023 columns it is proved |
| C142–C145 | `Model/AutoCanny`: `remove_small_edge`, `trace_edge` and the loops around them in `img_auto_threshold_canny`; `Model/AutoWindow`: the integral images, the windows, the cells and the cell of a pixel; rational numbers stand for `f32`, the gradient and the edges found with the lowest threshold are inputs | `Spec/EdgeTrack`: connected edges, their size, what is followed; `Spec/Window`: sums over windows. Invariant of the collection with unvisited pixels as measure, and of the scan over whole edges (`Proof/AutoCanny`); of the traces, where a pixel keeps its mark until its own trace (`Proof/AutoCannyTrace`); integral image = prefix sums, cells by induction over the windows (`Proof/AutoWindow`). **Violated**: C142 at the border (the collection stops at border pixels and removes a part of a longer edge); C144 for window sizes 6, 7, 11 (outside of the image) and below 4 (division by zero); C145 for images with fewer than a fourth of the window size rows or columns (index -1) |
| C146–C148 | `Model/Stroke`: `median_stroke_width`, `set_ray_width`, `normalize_swt_image`, `median_with_changed_order`; the rays are an input (their search computes with `f32`) | `Spec/Stroke`: lower median by counting, smallest value at the rays through a pixel. A ray lowers its pixels to its width (`setRay_spec`), insertion sort and the value at an index, uniqueness of the specified widths, hence independence of the order. **Violated**: C148 when the widths differ by 200 or more |
| C149–C154 | `Model/SysBuffer`: the byte and text buffers in memory: `write`, `expand_buffer`, `read`, `seek`, numbers by their bytes (lowest first), `read_str`, `read_char`, `read_line`; access outside of the memory is an outcome; file buffers are not modelled | `Spec/Buffer`: a buffer with bytes written at a position, values that fit. Induction over the bytes (`put_spec`, `textWrite_spec`), over sequences of values (`readItems_spec`). **Violated**: C149 and C151 for negative positions, which `seek` admits; C152 for strings with a character 0; C153 beyond the end; C154: `read_char` never moves the position, so that `read_line` does not end |
| C155–C159 | `Model/Numbers`: `add_five` (text of digits, stop index, shift, `atoi`), `max_lexi_order`, `one_number` with `u32` counter and conversion to `int`, `random_next_i32` for a value of `rand()`, `compare_value` for integer types; undefined behaviour is an outcome | `Spec/Numbers`: insertion of a digit by arithmetic, lexicographic order, digits by quotients. Induction over the digits from the left with bounds for the rest (`stop_pos`, `stop_neg`), over the text (`dropIx_least`), over the numbers (`oneLoop_spec`; no wrap by `below_ten`: the count for ten times as many numbers). **Violated**: C155 beyond `i32`, C157 from 2^31 on (and no end for 2^32 - 1), C158 when `RAND_MAX` is the largest `int` or the range is larger than `RAND_MAX`, C159 for unsigned and small signed types |
| C160–C163 | `Model/Derivative`: the nodes of `mt_auto_derivative` for one element with exact arithmetic (copy, sum, difference, product, quotient, power with natural exponent), search of parents, the recursion with the derivatives stored in the nodes, several requests after another, several sources; `Model/DerivativeLog`: logarithm and exponential function. Not modelled: looking up a node by `is_same`, operations in place, arrays (sub-arrays, expansion, pooling, convolution, loss), rounding, bias nodes | `Spec/Derivative`: dual numbers over any field, `Spec/DerivativeReal`: the steps as real functions, with Mathlib's `HasDerivAt`. The stored values are the sums over all paths (`session_spec`, invariant `Good`), these satisfy the chain rule from the target on (`grad_derivative`, double counting by `forward`), the derivatives of the real functions are a dual solution (`functions_derivative`). **Defects**: a parent with the node as both operands is counted twice with the same (first) branch: `x - x` gives 2, `x * x` gives 2, `x / x` gives `2 / x`; the power lacks the factor of the exponent (tree.h 723–725); the logarithm multiplies by `log(base)` (tree.cpp 252–254) where it must divide; `derivative(reses, targets, srcs)` uses `targets[i]` for `targets[j]` (mt_auto_derivative.cpp 107) |
| C164–C167 | `Model/MatCache`: `mt_mat_cache` with memories as numbers and reference numbers as counts of cached and held references; `get`, `statistic_memory` with `i32` overflow as an outcome, `enable_cache`, `set_memory_size`; two threads between the search and the copy of the array found. Destroyed memories and the contents of arrays are not modelled | `Spec/MatCache`: operations of a user, bytes of arrays. Invariant `Inv` over all sequences (a memory is cached once, with the sizes it was made with); `release_bytes`, `release_used` by induction over the cache; `threads_spec` over schedules. **Defects**: sums of bytes in `i32` (lines 130–141) overflow for two arrays of 1 GB; `m_caches` is searched and changed without the mutex (93–118), and `sys_thread_lock (s_mat_cache.m_mutex);` (31, 48) makes a temporary that unlocks at once: two threads can get the same memory |
| C168–C169 | `Model/Hist`: `mt_hist::hist` with rational numbers, counts outside of the vector are an outcome; `Model/SplitMean`: `split_array_to_max_mean_sub_arrays` with rational numbers for `f32`, integer right means, overflow of sums as an outcome | `Spec/Hist`: equal intervals; `Spec/SplitMean`: all splits as permutations. Induction over the bins (`bins_one`) and double counting (`sum_countP`); the first numbers of a sorted list have the smallest sum of all sublists (`take_sum_le`), the loop finds the largest value (`foldl_better`), errors of the quotient (`tdiv_error`). **Defects**: the range ends at 1.01 times the largest number, which is too small when that is zero or negative (mt_hist.cpp 10); `numbers` is not resized; the right mean is rounded (mt_helper.cpp 302), so 0, 0, 2, 3 is split after 2; the output `b` is not cleared |
| C170 | `Model/Ships`: `battle_ship` after the splitting of the texts: reading of cells, points with flags, hits, counts | `Spec/Ships`: ships as rectangles, sunk and damaged ships, names of cells. The flags after all hits (`foldl_hit`), names by a table of 9 × 26 (`cellOf_name`). **Defects**: rows with two digits are read wrongly (mt_helper.cpp 240–244, 261–262); corners in the other order give a ship without cells, sunk at once |
| C171–C172 | `Model/Gauss`: `generate_gaussian_kernel` and the choice of the kernels in `gaussian_blur` with real numbers, the division `0 / 0` as an outcome; the convolution and the rounded automatic sizes are not modelled | `Spec/Gauss`: the Gaussian kernel up to a factor, with sum 1. Real analysis of `exp`. **Defects**: sigma 0, for which `gaussian_blur` itself chooses the size 1, gives NaN; `generate_gaussian_kernel(kernel_y, kernel_width, sigma_y)` (img_img.cpp 353) uses the width for the height |
| C173–C174 | `Model/Conv`: sizes, starts and strides of `mt_mat::conv` in one dimension over the rationals, and the channel indices of the four alignments | `Spec/Conv` says what a convolution is, by the place of the first overlap and the count. Trusted: MKL's `vslConvExec` gives element `start + i * decimation` of the complete convolution. Seen, not modelled: `temp_strides` is used after its release when an auto derivative is attached (line 289). |
| C175–C177 | `Model/Pooling`: `pooling_2d_channel_1` and `unpooling_2d_channel_1` with rational elements, the sizes of C124; three dimensions, several channels and rounding are left out | `Spec/Pooling`: places of a window, the first best place. Invariant of the loop for the best element; sums by lists without repetition. **Defects**: `unpooling` asserts that the mask is empty, so max, min and index never have a result; sum is unsupported in two dimensions; seen, not modelled: depth I8 is handled as u8, and the code for more than three dimensions uses the mask of channel 0 for all channels |
| C178–C180 | `Model/RectDist`: `horizontal_dist` and `normlized` with integers, `normlize_angle` with rational numbers; no overflow | `Spec/RectDist`: smallest distance of columns, angle in one turn. **Defects**: `normlized` gives a rectangle without rows two rows if its width is negative; `normlize_angle` takes off one turn only and keeps 360. Not modelled as they do not compile when used: `vertical_dist`, `is_intersect`, `operator*` (names `mTop`, `mLeft`) |
| C181–C183 | `Model/Learn`: one row of `softmax` with real numbers, `quardratic_loss` of continuous arrays with the contents of new memory as a parameter and accesses outside as an outcome, one line of `reduce` with rational numbers (no standard deviations) | `Spec/Learn`. Invariants of the loops, real `exp`. **Defects** in `quardratic_loss`: the loop over the channels runs over the dimensions (line 299) and writes outside of the result for every matrix with one channel; `matching_mat.data()` (line 297) is the first element for all elements; the new array is not filled (line 287) |
| C184 | `Model/SubStride`: `sub_stride` with the arrays of `Model/Mat` and the sizes of C124 | `MatView` of `Spec/Mat` with the indices times the strides; induction over the dimensions |
| C185 | `Model/Expand`: `expand` made of `create`, `set(value)`, `sub`, `set(other)`; the record for derivatives is left out | `Bordered`: old elements behind the first sides, values elsewhere, frame; composition of C102, C108, C97, C106 |
| C61–C63 | as C30 | the same simulation in 4- and 8-neighbour mode (V1, unlike V2, tours all 8 directions: compare C16); the rectangles and flags are part of the invariant |
| C31 | `Model/SplitV1`: the split by accumulated size and the work of each thread | loop invariant: the threads before the current one have extracted exactly the first regions, each to the place after all earlier ones. **Violated** for 4 to 32 threads: trailing regions smaller than the remainder are lost |
| C32 | `Model/BlockMemory`: blocks, free list, visitor | representation invariant (`Proof/BlockMemory`), refinement to a plain list for any history |
| C33 | shift in `init` and `at` | **violated** (`init(2000, …)` in both algorithms); `_partial` for machines that mask the shift amount |
| C47 | `init` on a new object | **violated** for exponent 0; `_partial` for 1..30 |
| C34, C44, C45, C51–C55 | `Model/Helper`: functions of `mt_helper` | loop invariants against `Spec/Helper`. **Violated**: C44 (inverse conversion reads behind the sizes), C51 (flip wrong from 4 elements), C52 (`% 2 == 1` for negative numbers), C53 (result not resized), C55 (13! overflows); each with negation and `_partial` |
| C35, C56, C57 | `Model/Rect` | smallest covering rectangle, unique, hence any order; C56 **violated** (an empty rectangle still stretches the other) |
| C36, C58 | `Model/Components`: `ture_normal_extract` with the temporary image as bytes that may be unwritten | flood-fill invariant against `Spec/Components`; filling of the temporary image byte by byte. **Violated**: start address between two cells, uninitialised point index, last flag row missing with a mask image, nothing allocated for narrow background images; each with negation, and `_partial` for the code with the first two repaired |
| C37 | `Model/Channel`: `generate_mser_channel_image` | events in painting order against `Spec/Channel` (level and index of the most extreme, then earliest, region covering a pixel). **Violated**: the bright branch writes the level of the dark region with the same index; dark regions of level 255 never appear |
| C38, C59, C60 | `Model/Ownership`: heap of blocks with the way they were allocated; constructors, destructors and assignments of `img_mser` and `img_multi_msers`, with both ways a `std::vector` can be assigned | every history of create, extract, copy, assign, destroy compared with value semantics; invariant: blocks of different objects are disjoint and every block belongs to an object. **Violated** for results with common memory (copy points into the original, `free` of `new[]` memory, `delete[]` of `malloc` memory) |
| C39, C40, C48 | `Model/Sort`: heap sort, bubble sort, index sort, top-k collector | heap invariant; permutation of positions; C48 **violated** (inner loop ends at `size - j - 1`) |
| C41–C43, C49, C50 | `Model/Dp`: maximum run, longest common run, knapsack with memo table | recurrences against optimality over all runs/choices (`Spec/Dp`). **Violated**: C42 (single matches in the first column), C49 (flags), C50 (ends instead of begins) |

## Trusted base

Lean 4.33.0 kernel; axioms `propext`, `Classical.choice`, `Quot.sound` only.
The reading of the C++ source (cited per definition). Not modelled: OpenMP runtime, memory
allocator failure, integer overflow of `i32` sizes (images below 2^28 pixels are assumed where
packed words are discussed), the debug counter `m_merged_number` (incremented without synchronisation
by the quadrant threads in `connect`, img_fast_mser_v2.cpp 635: a data race on a value that is only
logged), logging, timers, OpenCV wrappers.
Linear detector: `extract_pixel_self_memory`, `share_extraction_share_memory` and `calculate_variance_with_cache` are
not modelled (never called). Original detector: `getStabilityRegions`, `assertHeadNotMerged`, `assertRegionPtCount`
(never called) and the counters that are only logged are not modelled; rows of images are assumed to follow each
other without gaps.
Idiap detector: `extract_pixel` discards the recognised regions (the code that writes them to `msers` is commented
out, 456–488), so a caller receives no region; the properties are about the component tree it builds.
V1: `m_orderd_indexes[0]` and `[1]` are allocated on every call of `allocate_memory` (lines 194, 317–318, 459–460,
620–621, 784–785) and never freed; this leak is noted here and not part of a property. The sort key of the
upper/lower borders is taken from the pixel to the right instead of the pixel below (1655–1659, 2174–2178); it only
affects the order of the joins, which the theorems show to be irrelevant.
