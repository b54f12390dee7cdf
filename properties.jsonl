{"id": "C01", "title": "AVL tree holds exactly the multiset of values added and not removed", "statement": "After any sequence of Add, Remove and Clear on an avl.Tree, Size and Select describe exactly the multiset obtained by inserting each added value and deleting one occurrence per Remove of a value that is present; Remove of an absent value changes nothing.", "quantifier": "all finite sequences of Add/Remove/Clear with arbitrary (also duplicate, also absent) non-NaN values", "why_tests_cant": "A test runs finitely many histories of finite length; the claim is about every history. Rotations on rare shapes with duplicates are exactly what samples miss.", "anchors": ["quantile/ost/avl/node.go: add, remove, removeMin, balance", "quantile/ost/avl/tree.go: Tree"]}
{"id": "C02", "title": "AVL Select returns the k-th smallest value", "statement": "For every reachable avl.Tree, Select(k) is the node holding the k-th smallest (0-based, counting duplicates) value if 0 <= k < Size(), and nil for every other integer k, including negative ones.", "quantifier": "all reachable trees, all integers k", "why_tests_cant": "A test runs finitely many histories of finite length; the claim is about every history.", "anchors": ["quantile/ost/avl/node.go: Select", "quantile/ost/avl/tree.go: Select"]}
{"id": "C03", "title": "AVL Rank counts the strictly smaller values", "statement": "For every reachable avl.Tree and every value v (present or not), Rank(v) is the number of stored values strictly less than v; hence Select(Rank(v)) has value v whenever v is present.", "quantifier": "all reachable trees, all values", "why_tests_cant": "A test runs finitely many histories of finite length; the claim is about every history.", "anchors": ["quantile/ost/avl/node.go: Rank"]}
{"id": "C04", "title": "AVL tree never panics", "statement": "No sequence of Add, Remove, Clear, Select, Rank, Size, Height on an avl.Tree dereferences a nil node or otherwise panics, and every call terminates.", "quantifier": "all finite operation sequences", "why_tests_cant": "A nil dereference in a rotation occurs only on particular shapes; tests cover a handful of shapes.", "anchors": ["quantile/ost/avl/node.go: balance, rotateLeft, rotateRight, min"]}
{"id": "C05", "title": "AVL tree height is logarithmic and Height() is truthful", "statement": "For every reachable avl.Tree, Height() is the real height (-1 when empty), the two subtrees of every node differ in height by at most one, and Size()+1 >= Fib(Height()+3), so Add/Remove/Select/Rank visit O(log n) nodes as complexity.md promises.", "quantifier": "all reachable trees of any size", "why_tests_cant": "Balance is an invariant over all histories; a test sees some trees.", "anchors": ["quantile/ost/avl/node.go: balance, Height", "complexity.md: Quantile"]}
{"id": "C06", "title": "Red-black tree holds exactly the multiset of values added and not removed", "statement": "Same as C01 for rb.Tree.", "quantifier": "all finite sequences of Add/Remove/Clear with arbitrary non-NaN values", "why_tests_cant": "A test runs finitely many histories of finite length; the claim is about every history. LLRB deletion with duplicates is notoriously fragile.", "anchors": ["quantile/ost/rb/node.go: add, remove, removeMin, moveRedLeft, moveRedRight", "quantile/ost/rb/tree.go: Tree"]}
{"id": "C07", "title": "Red-black Select and Rank are exact", "statement": "For every reachable rb.Tree, Select(k) is the k-th smallest value (nil out of range) and Rank(v) the number of strictly smaller values.", "quantifier": "all reachable trees, all integers k, all values v", "why_tests_cant": "A test runs finitely many histories of finite length; the claim is about every history.", "anchors": ["quantile/ost/rb/node.go: Select, Rank"]}
{"id": "C08", "title": "Red-black tree never panics and always terminates", "statement": "No sequence of rb.Tree operations dereferences nil or loops, although the root is never recoloured black by Add or Remove.", "quantifier": "all finite operation sequences", "why_tests_cant": "The panic paths (n.left.left on a nil child, flipColors on a missing child) are shape dependent.", "anchors": ["quantile/ost/rb/node.go: remove, moveRedLeft, moveRedRight, flipColors, rotateLeft, rotateRight"]}
{"id": "C09", "title": "Red-black tree is balanced", "statement": "For every reachable rb.Tree every root-to-nil path has the same number of black nodes, no red node has a red parent except possibly directly under the root, and the height is at most 2*log2(Size()+1)+1.", "quantifier": "all reachable trees of any size", "why_tests_cant": "Balance is an invariant over all histories.", "anchors": ["quantile/ost/rb/node.go: addBalance, removeBalance", "complexity.md: Quantile"]}
{"id": "C10", "title": "AVL and red-black implementations are interchangeable", "statement": "For the same sequence of operations avl.Tree and rb.Tree return identical Size, Select and Rank answers, so the Impl option never changes a Quantile/Median/IQR value.", "quantifier": "all operation sequences, all queries", "why_tests_cant": "Differential tests sample the sequences.", "anchors": ["quantile/impl.go: Impl.init", "quantile/order/order.go: Statistic"]}
{"id": "C11", "title": "Skip list holds exactly the multiset of values added and not removed", "statement": "After any sequence of Add/Remove/Clear, with any sequence of random levels, the bottom level of the skip list is the sorted multiset of live values, each higher level is a sublist of the one below, and Size is its length.", "quantifier": "all operation sequences, all outcomes of the random level generator, all maximum levels >= 1", "why_tests_cant": "Random levels make most structures unreachable for a fixed seed.", "anchors": ["quantile/skiplist/skiplist.go: Add, Remove, getPrevs, randLevel"]}
{"id": "C12", "title": "Skip list Select and Rank are exact", "statement": "Select(k) returns the k-th smallest value (nil out of range) and Rank(v) the number of strictly smaller values, for every history and every outcome of the level generator.", "quantifier": "all operation sequences (including duplicate values), all level choices, all k and v", "why_tests_cant": "The failure needs particular random levels together with duplicates; a seeded test never sees it.", "anchors": ["quantile/skiplist/skiplist.go: Add (width computation), equals, Select, Rank"]}
{"id": "C13", "title": "Skip list never panics and always terminates", "statement": "No skip list operation dereferences nil, indexes out of range or loops forever, whatever the levels drawn.", "quantifier": "all operation sequences, all level choices", "why_tests_cant": "Depends on random levels.", "anchors": ["quantile/skiplist/skiplist.go"]}
{"id": "C14", "title": "Quantile reports the quantile of exactly the current window", "statement": "For every stream, every window w (0 = whole stream) and every interpolation method, Value(q) with 0<q<1 returns the documented interpolation at index q*(n-1) between the order statistics of the last min(len,w) pushed values (all values when w = 0).", "quantifier": "all streams, windows, quantiles in (0,1), the five interpolation methods, the AVL and red-black implementations", "why_tests_cant": "A test runs finitely many histories of finite length; the claim is about every history.", "anchors": ["quantile/quantile.go: Push, Value", "quantile/interpolation.go"]}
{"id": "C15", "title": "Quantile argument and emptiness errors", "statement": "Value(q) returns an error exactly when q<=0, q>=1 or no value is currently held, never changes the state, and otherwise never panics.", "quantifier": "all states, all numeric q", "why_tests_cant": "Boundary behaviour for every q and state.", "anchors": ["quantile/quantile.go: Value"]}
{"id": "C16", "title": "Quantile values are bracketed by the window and monotone in q", "statement": "Every value reported by Quantile lies between the minimum and maximum of the current window, and for Linear, Lower, Higher, Nearest and Midpoint a larger q never yields a smaller value.", "quantifier": "all streams, windows, methods, pairs q1<=q2", "why_tests_cant": "A relation between two calls over all states.", "anchors": ["quantile/quantile.go: Value"]}
{"id": "C17", "title": "Selected order statistics never run out of range even with rounded indices", "statement": "If float64 multiplication q*(n-1) is replaced by any monotone rounding that fixes integers, Value still never selects a rank outside [0,n-1], so it cannot dereference a nil node.", "quantifier": "all monotone roundings, all sizes, all q in (0,1)", "why_tests_cant": "A test samples a few (q,n) pairs; rounding up to an integer happens for rare pairs.", "anchors": ["quantile/quantile.go: Value lines 107-141"]}
{"id": "C18", "title": "Median and IQR wrappers", "statement": "Median.Value is the textbook median (middle value, or mean of the two middle values) of the current window, and IQR.Value is the difference of the midpoint-interpolated 75% and 25% quantiles of the same window and is never negative, whatever interpolation option the caller passed.", "quantifier": "all streams, windows, option lists", "why_tests_cant": "A test runs finitely many histories of finite length; the claim is about every history.", "anchors": ["quantile/median.go", "quantile/iqr.go", "quantile/option.go"]}
{"id": "C19", "title": "A non-numeric quantile argument is rejected", "statement": "Value(q) returns an error instead of panicking for q = NaN.", "quantifier": "all states", "why_tests_cant": "Requires reasoning about IEEE comparison; no test uses NaN.", "anchors": ["quantile/quantile.go: Value line 95"]}
{"id": "C20", "title": "Option handling of quantile.New", "statement": "New fails exactly when the window is negative or some option is invalid; otherwise the last ImplOption and the last InterpolationOption win, with AVL and Linear as defaults.", "quantifier": "all windows, all option lists", "why_tests_cant": "All option lists of any length.", "anchors": ["quantile/quantile.go: New", "quantile/option.go", "quantile/impl.go", "quantile/interpolation.go"]}
{"id": "C21", "title": "Global HeapMedian is the median of all pushed values", "statement": "With window 0, after any non-empty stream Value returns the textbook median of everything pushed since the last Clear.", "quantifier": "all streams", "why_tests_cant": "A test runs finitely many histories of finite length; the claim is about every history.", "anchors": ["quantile/heap_median.go: Push, rebalance, Value", "quantile/heap/heap.go"]}
{"id": "C22", "title": "Windowed HeapMedian is the median of the last w values", "statement": "With window w > 0 Value returns the median of the last min(len,w) pushed values.", "quantifier": "all streams, all windows w >= 1", "why_tests_cant": "Needs long histories in which a rebalance moved an element different from the pushed one.", "anchors": ["quantile/heap_median.go: Push, rebalance"]}
{"id": "C23", "title": "HeapMedian never panics", "statement": "No sequence of Push, Value and Clear panics.", "quantifier": "all streams, all windows", "why_tests_cant": "The panic needs the low heap to be empty while the window is full.", "anchors": ["quantile/heap_median.go: Push", "quantile/heap/heap.go: Peek"]}
{"id": "C24", "title": "Heap operations keep the heap order and the item bookkeeping", "statement": "For every reachable HeapMedian both heaps satisfy the heap property for their comparator, every element knows its own index and heap, no element is in both heaps, their sizes differ by at most one and every low element is <= every high element.", "quantifier": "all streams, windows >= 2 and window 0", "why_tests_cant": "A test runs finitely many histories of finite length; the claim is about every history.", "anchors": ["quantile/heap/heap.go", "quantile/heap_median.go"]}
{"id": "C25", "title": "Max reports the maximum of the current window", "statement": "For every stream and window w (0 = whole stream) Max.Value returns the maximum of the last min(len,w) values since the last Clear, and an error exactly when there are none.", "quantifier": "all streams, all windows", "why_tests_cant": "A test runs finitely many histories of finite length; the claim is about every history.", "anchors": ["minmax/max.go"]}
{"id": "C26", "title": "Min reports the minimum of the current window", "statement": "Same as C25 for Min.", "quantifier": "all streams, all windows", "why_tests_cant": "A test runs finitely many histories of finite length; the claim is about every history.", "anchors": ["minmax/min.go"]}
{"id": "C27", "title": "Min and Max are dual", "statement": "Min over a stream equals minus Max over the negated stream after every prefix, windowed or global.", "quantifier": "all streams, all windows", "why_tests_cant": "Relation over all histories.", "anchors": ["minmax/max.go", "minmax/min.go"]}
{"id": "C28", "title": "Min/Max never panic and cost O(1) amortized", "statement": "Push never pops or reads an empty deque; over any history the total number of deque removals never exceeds the number of pushes, and the deque never holds more than max(1,w) entries.", "quantifier": "all streams, all windows", "why_tests_cant": "Amortized bound over all histories.", "anchors": ["minmax/max.go: Push", "minmax/min.go: Push", "complexity.md: Min/Max"]}
{"id": "C29", "title": "A NaN leaves the window after w further pushes", "statement": "Once w more numbers have been pushed after a NaN, Max/Min report the extremum of the last w numbers again.", "quantifier": "all streams containing NaN", "why_tests_cant": "No test pushes NaN; comparison semantics matter.", "anchors": ["minmax/max.go: Push line 71, 83"]}
{"id": "C30", "title": "Core.Count and Core.Mean describe the current window", "statement": "After any history Count is the number of values in the window (min(len,w), or len when w=0) and Mean is their arithmetic mean; Mean errors exactly when Count = 0.", "quantifier": "all streams, all windows, exact arithmetic", "why_tests_cant": "A test runs finitely many histories of finite length; the claim is about every history.", "anchors": ["moment/core.go: UnsafePush, add, remove, UnsafeMean, UnsafeCount"]}
{"id": "C31", "title": "Core.Sum(k) is the k-th centralized power sum of the window", "statement": "After any history and for every tracked k >= 1, Sum(k) equals the sum of (x - mean)^k over the current window; Sum errors exactly when no values are present or k is outside [1, max tracked].", "quantifier": "all streams, all windows, all k whose binomials do not overflow int64 (k <= 20), exact arithmetic", "why_tests_cant": "Pebay update and downdate formulas for arbitrary k and arbitrarily long histories.", "anchors": ["moment/core.go: add, remove, UnsafeSum"]}
{"id": "C32", "title": "Removing a value undoes adding it", "statement": "For every Core state reachable by pushes, removing the most recently added value (window rollover) restores mean, count and all sums exactly; more generally the order in which window elements were added does not matter.", "quantifier": "all states, all values, exact arithmetic", "why_tests_cant": "Algebraic identity for all k and all states.", "anchors": ["moment/core.go: remove"]}
{"id": "C33", "title": "EWMA and EWMMoment follow the documented weighting", "statement": "After x_1..x_n with decay d, EWMA is sum w_i x_i with w_1=(1-d)^(n-1) and w_i=d(1-d)^(n-i), and EWMMoment(k) is sum w_i (x_i - EWMA)^k; the weights sum to one.", "quantifier": "all streams, all decays in (0,1), all k <= 20, exact arithmetic", "why_tests_cant": "A test runs finitely many histories of finite length; the claim is about every history.", "anchors": ["moment/core.go: addDecay", "moment/ewma.go", "moment/ewmmoment.go", "moment/ewmstd.go"]}
{"id": "C34", "title": "Moment, Std, Skewness and Kurtosis compute their textbook statistic", "statement": "For windows with at least two values (three for skewness, non-zero variance for skewness and kurtosis) Moment(k) is sum/(n-1), Std its square root for k=2, Skewness the adjusted Fisher-Pearson coefficient and Kurtosis the excess kurtosis of the window; in the degenerate cases the result is NaN or infinite as IEEE division dictates and never a finite number.", "quantifier": "all streams, all windows, exact arithmetic", "why_tests_cant": "A test runs finitely many histories of finite length; the claim is about every history.", "anchors": ["moment/moment.go", "moment/std.go", "moment/skewness.go", "moment/kurtosis.go"]}
{"id": "C35", "title": "Variance is non-negative and shift/scale laws hold", "statement": "Mean commutes with x -> a*x+b; Sum(k) scales by a^k and ignores b; the variance is >= 0 and is 0 exactly when all window values are equal; kurtosis >= -2.", "quantifier": "all streams, all a,b, exact arithmetic", "why_tests_cant": "Metamorphic relations over all streams.", "anchors": ["moment/core.go", "moment/moment.go", "moment/kurtosis.go"]}
{"id": "C36", "title": "Clear is equivalent to a fresh metric", "statement": "For every metric (Core, Mean, Moment, EWM*, joint metrics, Min, Max, Quantile, Median, IQR, HeapMedian, trees, skip list) any history following Clear behaves exactly as it would on a newly constructed instance.", "quantifier": "all histories before Clear, all histories after", "why_tests_cant": "Quantifies over two histories.", "anchors": ["moment/core.go: UnsafeClear", "joint/core.go: UnsafeClear", "minmax/max.go: Clear", "quantile/quantile.go: Clear", "quantile/heap_median.go: Clear", "joint/autocov.go: Clear"]}
{"id": "C37", "title": "Metrics without a Core refuse to work and are not corrupted", "statement": "Push and Value on a moment or joint metric that was not passed through Init return an error and Clear is a no-op.", "quantifier": "all metrics of both packages, all inputs", "why_tests_cant": "Applies to each metric and each call order.", "anchors": ["moment/mean.go", "moment/moment.go", "joint/cov.go", "joint/autocorr.go"]}
{"id": "C38", "title": "moment.NewCore accepts exactly the valid configurations", "statement": "NewCore succeeds iff Window is set and >= 0, Decay is unset or in (0,1) with Window = 0, and every configured exponent is positive; the core then answers Sum(k) for exactly 1 <= k <= max configured.", "quantifier": "all configurations", "why_tests_cant": "All configurations.", "anchors": ["moment/config.go: validateConfig, setConfigDefaults", "moment/core.go: NewCore"]}
{"id": "C39", "title": "moment.MergeConfigs yields a config serving every input config", "statement": "On success the merged config tracks the union of the exponents and has the common window and decay; it fails exactly when the list is empty or two set windows or two set decays differ; the result does not depend on the order up to equality.", "quantifier": "all lists of configurations", "why_tests_cant": "All lists of any length.", "anchors": ["moment/config.go: MergeConfigs"]}
{"id": "C40", "title": "Binomial coefficients are exact", "statement": "Binom(n,k) equals n!/(k!(n-k)!) for all 0 <= k <= n that a Core can request.", "quantifier": "all n, k (int64 arithmetic)", "why_tests_cant": "Overflow appears only from n = 21 on; tests use small n.", "anchors": ["util/math/math.go: Binom, factorial"]}
{"id": "C41", "title": "Core.Push never panics", "statement": "Push on a Core created by NewCore never panics for any accepted configuration.", "quantifier": "all accepted configurations, all streams", "why_tests_cant": "The panic (integer division by zero) needs exponents above 60.", "anchors": ["moment/core.go: add", "util/math/math.go: Binom"]}
{"id": "C42", "title": "Joint Core.Sum is the joint centralized power sum (global)", "statement": "With window 0 and no decay, for every tuple m below a configured tuple with at least one positive exponent, Sum(m) equals the sum over all data points of prod (x_j - mean_j)^(m_j).", "quantifier": "all streams, all numbers of variables, all configured tuple lists without hash collisions and with exponents at most 20 each and 62 in total (beyond that the 64-bit factorials overflow, see C40), exact arithmetic", "why_tests_cant": "A test runs finitely many histories of finite length; the claim is about every history.", "anchors": ["joint/core.go: add, UnsafeSum"]}
{"id": "C43", "title": "Joint Core.Sum over a rolling window", "statement": "With window w > 0 the same holds over the last min(len,w) points.", "quantifier": "all streams, windows, configured tuple lists", "why_tests_cant": "Requires overlapping tuples and an eviction; no test has both.", "anchors": ["joint/core.go: remove lines 282-327"]}
{"id": "C44", "title": "Joint exponentially weighted sums", "statement": "With decay d, Sum(m) equals sum w_i prod (x_ij - ewma_j)^(m_j) with the C33 weights.", "quantifier": "all streams, decays, tuple lists as in C42, exact arithmetic", "why_tests_cant": "A test runs finitely many histories of finite length; the claim is about every history.", "anchors": ["joint/core.go: addDecay"]}
{"id": "C45", "title": "Cov, Corr, EWMCov, EWMCorr compute their textbook statistic", "statement": "Cov is the sample covariance, Corr the Pearson coefficient of the current window of pairs, EWMCov/EWMCorr the exponentially weighted versions; Corr and EWMCorr lie in [-1,1] whenever they are finite.", "quantifier": "all streams of pairs, all windows/decays, exact arithmetic", "why_tests_cant": "A test runs finitely many histories of finite length; the claim is about every history.", "anchors": ["joint/cov.go", "joint/corr.go", "joint/ewmcov.go", "joint/ewmcorr.go"]}
{"id": "C46", "title": "Autocov and Autocorr pair each value with the one lag steps earlier", "statement": "After any history Autocov(lag,w) is the sample covariance, and Autocorr the Pearson correlation, of the last min(.,w) pairs (x_t, x_{t-lag}); they report an error until lag+1 values have been seen, and lag 0 gives variance and correlation 1.", "quantifier": "all streams, lags, windows, exact arithmetic", "why_tests_cant": "A test runs finitely many histories of finite length; the claim is about every history.", "anchors": ["joint/autocov.go", "joint/autocorr.go"]}
{"id": "C47", "title": "A push with the wrong number of values is rejected without effect", "statement": "Pushing a slice whose length differs from the number of variables returns an error and leaves every later answer unchanged.", "quantifier": "all states, all slices", "why_tests_cant": "All states and lengths.", "anchors": ["joint/core.go: UnsafePush", "joint/cov.go: Push"]}
{"id": "C48", "title": "Tuple iteration visits exactly the tuples below the bound, each once, in a compatible order", "statement": "iter(t) calls back exactly once for every m with 0 <= m_i <= t_i, smaller tuples before larger ones in forward mode and after them in reverse mode.", "quantifier": "all tuples of any length", "why_tests_cant": "All lengths and bounds.", "anchors": ["joint/tuple.go: iter"]}
{"id": "C49", "title": "Tuple hash has no collisions for exponents below 31", "statement": "Two different exponent tuples of the same length with all entries below 31 never share a hash.", "quantifier": "all pairs of tuples of the same length", "why_tests_cant": "63-bit overflow needs tuples of length 13 or more.", "anchors": ["joint/tuple.go: hash"]}
{"id": "C50", "title": "Sum answers only for the tuple asked for", "statement": "Sum(m) either reports the sum for exactly the exponents m or an error if m is not tracked.", "quantifier": "all configurations, all queried tuples", "why_tests_cant": "Needs colliding tuples.", "anchors": ["joint/core.go: UnsafeSum", "joint/tuple.go: hash"]}
{"id": "C51", "title": "joint.MergeConfigs yields a config serving every input config", "statement": "On success every tuple of every input config is below a tuple of the merged config, window/vars/decay are the common ones; inconsistent inputs give an error.", "quantifier": "all lists of configurations", "why_tests_cant": "All lists.", "anchors": ["joint/config.go: MergeConfigs, simplifySums"]}
{"id": "C52", "title": "joint.NewCore accepts exactly the valid configurations", "statement": "NewCore succeeds iff Window is set and >= 0, Vars (if set) >= 2, Decay unset or in (0,1) with Window 0, all tuples have the same length >= 2 equal to Vars if set, non-negative entries not all zero, and Vars or Sums is given.", "quantifier": "all configurations", "why_tests_cant": "All configurations.", "anchors": ["joint/config.go: validateConfig, validateTuple", "joint/core.go: NewCore"]}
{"id": "C53", "title": "Caller may reuse its slice after Push", "statement": "Modifying the slice passed to joint Core.Push(xs...) after the call returns does not affect later results.", "quantifier": "all histories of pushes and caller-side writes", "why_tests_cant": "Aliasing only shows w pushes later.", "anchors": ["joint/core.go: UnsafePush line 111"]}
{"id": "C54", "title": "Reservoir sample size and provenance", "statement": "After n pushes Sample has exactly min(n,Size) elements, which occupy distinct positions of the stream; the first Size values are kept verbatim until the stream exceeds Size; Sample returns a copy.", "quantifier": "all streams, all sizes, all outcomes of the random generator", "why_tests_cant": "All random outcomes.", "anchors": ["sample/sample.go"]}
{"id": "C55", "title": "Reservoir sampling is uniform", "statement": "If rand.Intn is uniform and independent, then after n >= Size pushes every Size-subset of stream positions is equally likely to be the sample, so each value is included with probability Size/n.", "quantifier": "all stream lengths and sizes", "why_tests_cant": "A distributional statement; statistical tests only approximate it.", "anchors": ["sample/sample.go: Push"]}
{"id": "C56", "title": "Aggregate metrics are independent of goroutine scheduling", "statement": "Push delivers the value to every wrapped metric exactly once before returning, and for metrics that do not share state the resulting states, the Values map and whether an error is reported do not depend on the schedule.", "quantifier": "all metric lists, all interleavings of the per-metric goroutines", "why_tests_cant": "Schedules cannot be enumerated by running.", "anchors": ["aggregate/simple_aggregate.go: Push, Values, Clear", "aggregate/simple_joint_aggregate.go"]}
{"id": "C57", "title": "Aggregate errors are complete", "statement": "Push returns an error iff at least one metric failed and the error contains every failure; Values returns an error iff some metric failed, and otherwise maps every metric's String() to its Value().", "quantifier": "all metric lists with distinct names, all interleavings", "why_tests_cant": "All subsets of failing metrics and schedules.", "anchors": ["aggregate/simple_aggregate.go"]}
{"id": "C58", "title": "Metric names identify metrics", "statement": "Two metrics with different parameters have different String() results, so that aggregate results are not overwritten.", "quantifier": "all parameter pairs", "why_tests_cant": "All parameter values.", "anchors": ["moment/moment.go: String", "quantile/median.go: String", "quantile/quantile.go: String", "minmax/max.go: String"]}
{"id": "C59", "title": "Concurrent use of a metric is serializable", "statement": "Any interleaving of concurrent Push, Value/Sum/Mean/Count and Clear calls on a Core, Quantile, HeapMedian, Min, Max or Reservoir yields results of some sequential execution of the same calls that respects each goroutine's order.", "quantifier": "all numbers of goroutines, all call sequences, all interleavings", "why_tests_cant": "Interleavings cannot be enumerated.", "anchors": ["moment/core.go: Push, Count, Mean, Sum, Clear", "joint/core.go", "minmax/max.go", "quantile/quantile.go", "quantile/heap_median.go", "sample/sample.go"]}
{"id": "C60", "title": "Concurrent Push and Value never deadlock", "statement": "With sync.RWMutex semantics (a waiting writer blocks new readers) no interleaving of Push and Value calls on a shared metric gets stuck.", "quantifier": "all interleavings of goroutines calling Push/Value", "why_tests_cant": "The deadlock needs a writer to arrive between two nested RLock calls.", "anchors": ["moment/mean.go: Value", "moment/moment.go: Value", "joint/cov.go: Value", "quantile/iqr.go: Value"]}
{"id": "C61", "title": "Independent cores do not interfere", "statement": "Concurrent pushes to two different Cores give the same results as pushing to each alone.", "quantifier": "all interleavings of two pushes on different cores", "why_tests_cant": "The shared factorial table is corrupted only by a particular interleaving.", "anchors": ["util/math/math.go: factorial"]}
{"id": "C62", "title": "Changing Size never makes a reservoir panic", "statement": "Size is an exported field; whatever values it is given between pushes, Push does not panic and the sample keeps at least min(n,Size) elements.", "quantifier": "all streams, all assignments to Size between pushes, all outcomes of the random generator", "why_tests_cant": "The panic needs a particular draw after a particular assignment; all histories and draws.", "anchors": ["sample/sample.go: Reservoir.Size, Push"]}
{"id": "C63", "title": "String of an order statistic lists what it stores", "statement": "String() of an AVL tree, a red-black tree and a skip list never panics; for the trees it has exactly one line per stored value, from the largest to the smallest, indented by depth; for the skip list it has one line per level from top to bottom, each with one dash per stored value, the last line listing all stored values in increasing order.", "quantifier": "all histories of Add, Remove and Clear, all level draws, all maximum levels, any formatting of the numbers", "why_tests_cant": "The recursion is over all tree shapes, and the skip list's widths depend on all earlier operations and random levels.", "anchors": ["quantile/ost/avl/node.go: TreeString, treeString", "quantile/ost/rb/node.go: TreeString, treeString", "quantile/skiplist/skiplist.go: String"]}
{"id": "C64", "title": "Numbers never steer the moment core", "statement": "Whatever the float64 operations return (rounding, overflow, NaN), for exponents up to 65 no Push panics, hangs or returns an error, Count is the number of values in the window, Mean and Sum(k) return an error exactly when no value has been pushed since Clear or k is not tracked, and the window holds the last w values.", "quantifier": "all arithmetics (any functions in place of + - * / pow), all configurations, all histories", "why_tests_cant": "Tests use a few finite values; the claim is about every outcome of every operation, including NaN and infinities.", "anchors": ["moment/core.go: Push, UnsafePush, add, addDecay, remove, Mean, Sum, Count"]}
{"id": "C65", "title": "A constant stream has exactly its value as mean and zero moments", "statement": "If all values pushed since Clear are the same float64 x, Mean is exactly x and every tracked Sum(k) is exactly 0, with any window or decay, in spite of rounding.", "quantifier": "all representable x, all lengths, all windows and decays, every rounding that fixes 0 and 1", "why_tests_cant": "Rounding errors could accumulate after any number of pushes and evictions.", "anchors": ["moment/core.go: add, addDecay, remove"]}
{"id": "C66", "title": "The variance is never negative in floating point", "statement": "Sum(2), Moment(2) and the argument of the square root in Std are never negative, so Std of finite values is never NaN for two or more values.", "quantifier": "all histories of float64 values without overflow, all windows and decays", "why_tests_cant": "A negative result needs a particular pattern of rounding errors; tests use friendly numbers.", "anchors": ["moment/core.go: add, addDecay, remove", "moment/std.go: Value"]}
{"id": "C67", "title": "Mean stays between the smallest and the largest value in floating point", "statement": "Mean (and EWMA) computed in float64 lies between the minimum and the maximum of the values it is about.", "quantifier": "all histories of float64 values without overflow, all windows and decays", "why_tests_cant": "The claim is about the accumulated rounding of arbitrarily many steps.", "anchors": ["moment/core.go: add, addDecay, remove, Mean"]}
{"id": "C68", "title": "A NaN or infinity leaves no trace once it has left the window", "statement": "When the window contains finite values only, Mean and Sum are those of the window, even if NaN or an infinity was pushed earlier.", "quantifier": "all windows, all histories since Clear, any IEEE arithmetic", "why_tests_cant": "Tests do not push NaN or infinities; the claim is about all continuations.", "anchors": ["moment/core.go: remove, add, Clear"]}
{"id": "C69", "title": "Accuracy of Mean in binary64", "statement": "In IEEE binary64 the global Mean of n values bounded by M is within ((n+13)/2)*2^-53*M (plus a multiple of the least subnormal) of the exact mean; EWMA is within 7*2^-53*M/decay for any number of values; a windowed Mean drifts by at most 48*2^-53*M per Push since Clear, where M bounds all the values since Clear.", "quantifier": "all histories of fewer than 2^53 float64 values without overflow, all windows and decays", "why_tests_cant": "A bound on accumulated rounding error over all inputs cannot be sampled.", "anchors": ["moment/core.go: add, addDecay, remove, Mean"]}
{"id": "C70", "title": "Concurrent use of Autocov and Autocorr is serializable", "statement": "Calls of Push, Value and Clear on one Autocov or Autocorr from several goroutines return what they would return if they were made one after the other, in an order compatible with that of each goroutine and of calls that do not overlap.", "quantifier": "all numbers of goroutines, all schedules, all lags and windows", "why_tests_cant": "The schedules are unboundedly many, and the offending ones need a Clear between two lock acquisitions inside Value.", "anchors": ["joint/autocov.go: Push, Value, Clear", "joint/autocorr.go: Push, Value, Clear", "joint/core.go: Count"]}
{"id": "C71", "title": "Quantile, Median, IQR and HeapMedian stay in range in binary64", "statement": "In IEEE binary64 the value reported by Quantile (any interpolation), Median and HeapMedian lies between the smallest and the largest value of the window, a larger q never gives a smaller value, IQR is never negative, and Median and the global HeapMedian report the same number for the same pushes.", "quantifier": "all histories of float64 values, all windows, options and q", "why_tests_cant": "Rounding effects depend on the exact bit patterns of the values and of q; a sample of inputs says nothing about the others.", "anchors": ["quantile/quantile.go: Value", "quantile/median.go: Value", "quantile/iqr.go: Value", "quantile/heap_median.go: Value"]}
{"id": "C72", "title": "The joint core is robust in any arithmetic", "statement": "Whatever numbers are pushed (including NaN and infinities) and whatever the floating-point operations return, Push on a joint Core never panics or blocks, fails exactly when the number of values is wrong, Count is the number of points in the window, and Mean and Sum fail exactly when the core is empty or the variable or tuple is not tracked. The configurations for which this can fail are exactly those with an exponent of 66 or more.", "quantifier": "all valid configurations, all histories of Push and Clear, all float64 values, all floating-point behaviours", "why_tests_cant": "The number of float64 inputs and configurations is astronomically large; a test cannot exclude that some value makes control flow depart from the exact behaviour.", "anchors": ["joint/core.go: Push, updateSums, Count, Mean, Sum", "util/math/math.go: Binom"]}
{"id": "C73", "title": "Sharing a core does not change a metric, in floating point", "statement": "Replacing the core of a metric by a core that tracks more powers or tuples, as the aggregation does, leaves every value the metric reads unchanged, to the last bit.", "quantifier": "all configurations with exponents up to 65, all windows and decays, all histories, all floating-point behaviours", "why_tests_cant": "Equality to the bit must hold for every history of float64 values and every set of companion metrics.", "anchors": ["moment/core.go: Push, updateSums, Sum, Mean", "joint/core.go: Push, updateSums, Sum, Mean", "moment/config.go: MergeConfigs", "joint/config.go: MergeConfigs"]}
{"id": "C74", "title": "A joint core sees each variable as a univariate core would, in floating point", "statement": "Mean(i) of a joint core is, to the last bit, the mean of a moment core fed the i-th values; Sum of the tuple with 2 at i is its Sum(2); Sum of the tuple with 1 at i and j is Sum(1,1) of a core for these two variables alone.", "quantifier": "all histories of float64 points, any number of variables, all windows and decays", "why_tests_cant": "The two packages implement the update independently; agreement to the bit must be established for every history and every arithmetic.", "anchors": ["joint/core.go: Push, updateSums, Mean, Sum", "moment/core.go: Push, updateSums, Mean, Sum"]}
{"id": "C75", "title": "Corr behaves like a correlation in binary64", "statement": "In binary64 Corr and EWMCorr do not depend on the order of the two variables, are exactly 1 for two equal non-constant variables, and lie in [-1, 1].", "quantifier": "all histories of float64 points, all windows and decays", "why_tests_cant": "Rounding depends on the exact bit patterns; tests on samples compare with a tolerance and cannot exclude values above 1 or the wrong sign.", "anchors": ["joint/corr.go: Value", "joint/ewm_corr.go: Value", "joint/core.go: Push, Sum"]}
{"id": "C76", "title": "Identical points have exact means and zero sums in a joint core", "statement": "A joint core that has seen the same point of float64 values any number of times since the last Clear reports exactly its coordinates as means and exactly zero for every tracked sum.", "quantifier": "all points, all numbers of repetitions, any configuration, window or decay", "why_tests_cant": "Whether rounding errors cancel depends on the values and the number of repetitions; the claim is about every bit pattern and every length.", "anchors": ["joint/core.go: Push, add, addDecay, remove, Mean, Sum"]}
{"id": "C77", "title": "Means in range, variances not negative, errors bounded, for every variable of a joint core", "statement": "In floating point every Mean(i) of a joint core lies between the least and largest value of variable i in the window and is within a small multiple of the unit roundoff of the true mean; sums of squares are never negative.", "quantifier": "all histories of float64 points, any number of variables, all windows and decays", "why_tests_cant": "Rounding depends on the exact values pushed; a test compares samples with a tolerance.", "anchors": ["joint/core.go: Push, add, addDecay, remove, Mean, Sum"]}
{"id": "C78", "title": "A NaN or infinite coordinate is forgotten when its point leaves the window of a joint core", "statement": "After a point with a NaN or infinite coordinate has left the window, Mean and Sum are those of the points in the window.", "quantifier": "all histories of float64 points, all windows, all configurations", "why_tests_cant": "The state after the eviction depends on the whole history; a test shows one history.", "anchors": ["joint/core.go: Push, remove, Mean, Sum, Clear"]}
{"id": "C79", "title": "A core is fixed when it is made, and a configuration may be used again", "statement": "A core behaves as the configuration it was made from said at the call of NewCore, whatever is done to that configuration or to other configurations and cores later; what NewCore does with one configuration does not depend on what was done to another.", "quantifier": "all histories of configuration writes, NewCore calls, pushes and clears by one client, any number of configurations and cores, both packages", "why_tests_cant": "Sharing shows only when several objects are used in a particular order; tests make one core from one fresh configuration.", "anchors": ["moment/config.go: CoreConfig, defaultConfig, setConfigDefaults", "moment/core.go: NewCore, addDecay", "joint/config.go: CoreConfig, setConfigDefaults", "joint/core.go: NewCore, add, addDecay, remove"]}
{"id": "C80", "title": "Constructing a metric leaves the caller's options alone", "statement": "New, NewMedian and NewIQR build the metric the passed options describe, and every options slice of the caller holds the same options afterwards.", "quantifier": "all option lists, all slices (any offset, length and spare capacity) of any arrays", "why_tests_cant": "Overwriting happens only if the passed slice has spare capacity that another slice sees; tests pass literal options.", "anchors": ["quantile/median.go: NewMedian", "quantile/iqr.go: NewIQR", "quantile/quantile.go: New"]}
{"id": "C81", "title": "Signs, units and origin of the data do not matter", "statement": "Feeding -x for every x negates Mean and the odd power sums and leaves the even ones and Std as they are; negating one variable negates Cov and Corr; feeding 2^u*x multiplies Mean by 2^u and Sum(k) by 2^(k*u); feeding x+b leaves Sum(k) as it is. To the bit, in binary64.", "quantifier": "all histories of pushes and clears, all windows, decays and tracked powers, all subsets of negated variables, all u", "why_tests_cant": "Equality to the bit of two floating-point runs has to hold for every history; a rounding that is not symmetric, or an update that is not homogeneous, shows only at particular values.", "anchors": ["moment/core.go: add, addDecay, remove", "joint/core.go: add, addDecay, remove", "joint/corr.go: Value", "moment/std.go: Value"]}
{"id": "C82", "title": "The variance is accurate", "statement": "In binary64, after n values bounded by M in absolute value, Sum(2) is off by at most 2n(n+40)*2^-53*M^2 and the variance by at most 4(n+42)*2^-53*M^2 without a window; with any window Sum(2) is off by at most 250nL*2^-53*M^2, n counting the values pushed since Clear and L those in the window. No such bound holds relative to the variance itself.", "quantifier": "all histories of pushes and clears with at most 2^43 values since Clear, all representable data with bound at least 2^-480, all windows, no decay", "why_tests_cant": "An error bound is a statement on every history; tests compare a few short histories within a tolerance and cannot show how the error grows.", "anchors": ["moment/core.go: add, remove", "moment/moment.go: Value", "moment/std.go: Value"]}
{"id": "C83", "title": "The covariance is accurate", "statement": "In binary64, after N points with coordinates bounded by M1 and M2, the joint sum of products is off by at most 4N(N+20)*2^-53*M1*M2 and Cov by at most 8(N+22)*2^-53*M1*M2 without a window; with any window the sum of products is off by at most 250NL*2^-53*M1*M2, N counting the points pushed since Clear and L those in the window, and the sums of squares by the bound of C82. No such bound holds relative to the covariance itself.", "quantifier": "all histories of pushes and clears with at most 2^43 points since Clear, all pairs of variables of cores of any arity without collisions (and, for windows of two or more, without overlapping tuples), no decay", "why_tests_cant": "An error bound is a statement on every history; tests compare a few short histories within a tolerance.", "anchors": ["joint/core.go: add, remove, updateSums", "joint/cov.go: Value"]}
{"id": "C84", "title": "The order within the window does not matter", "statement": "Two metrics of the same kind whose windows hold the same multiset of values report the same value, whatever the order of arrival, the earlier values, the calls of Clear and (for Quantile) the container are.", "quantifier": "all pairs of histories with permuted windows, all windows, interpolations and containers", "why_tests_cant": "A relation between all pairs of histories; tests compare a metric with a reference for a few orders only.", "anchors": ["quantile/quantile.go: Value", "quantile/heap_median.go: Value", "minmax/max.go: Value", "minmax/min.go: Value", "moment/core.go: Push, Sum", "joint/core.go: Push, Sum"]}
{"id": "C85", "title": "Memory stays within the documented space bounds", "statement": "After any history, a metric over a window of n values keeps O(n) numbers: a Quantile stores at most one container node per value in the window, HeapMedian exactly one heap item per value, Max and Min at most one deque entry per value (none without a window), a moment core one sum per exponent up to the largest, a joint core at most one sum per sub-tuple of a configured tuple; every queue has at most twice the window's slots. NaN is no exception.", "quantifier": "all histories of pushes and clears, all windows, all containers, all configurations", "why_tests_cant": "A leak shows only on long streams; the bound is a statement about every length of history.", "anchors": ["complexity.md", "quantile/quantile.go: Push", "quantile/heap_median.go: Push", "minmax/max.go: Push", "minmax/min.go: Push", "moment/core.go: Push", "joint/core.go: Push"]}
{"id": "C86", "title": "Quantile metrics run within the documented time bounds", "statement": "Push and Value of a Quantile, with any tree implementation, visit O(log n) nodes and Push of HeapMedian takes O(log n) steps of the heap loops, n being the number of values in the window.", "quantifier": "all histories, all windows, all pushed values, in the worst case", "why_tests_cant": "Asymptotic bounds are statements on all sizes; benchmarks measure a few sizes and cannot tell log n from its square.", "anchors": ["complexity.md", "quantile/ost/avl/node.go: add, remove, Select", "quantile/ost/rb/node.go: add, remove, contains, Select", "quantile/quantile.go: Push, Value", "quantile/heap_median.go: Push"]}
{"id": "C87", "title": "Pushing to a core takes the documented time", "statement": "After any history, Push of a moment core whose largest exponent is k takes O(k^2) steps, and Push of a joint core with d variables and t tuples takes O(t d a^2) steps, a being the largest product (m_1+1)...(m_d+1) over the tuples m, with and without a window or decay.", "quantifier": "all configurations with exponents up to 65, all histories of pushes and clears, all arithmetics", "why_tests_cant": "Asymptotic bounds are statements on all sizes; benchmarks measure a few configurations.", "anchors": ["complexity.md", "moment/core.go: UnsafePush, add, addDecay, remove", "joint/core.go: UnsafePush, add, addDecay, remove", "joint/tuple.go: iter"]}
{"id": "C88", "title": "Skip list operations take logarithmic time on average", "statement": "For every history of additions, removals and clears fixed before the random levels are drawn, the next Add, Remove, Rank or Select of a skip list takes O(log n) loop iterations on average over the levels, n being the number of stored values.", "quantifier": "all histories, all values, all numbers of levels and level probabilities, average over independent uniform draws", "why_tests_cant": "An expectation over all random draws at all sizes; a benchmark samples a few draws at sizes far below those where the limit of 12 levels matters.", "anchors": ["complexity.md", "quantile/skiplist/skiplist.go: Add, Remove, Select, Rank, randLevel, getPrevs", "quantile/skiplist/option.go: MaxLevelOption, ProbabilityOption"]}
{"id": "C89", "title": "A window that is never exceeded makes no difference", "statement": "As long as no more than w values have been pushed since the last Clear, a metric or core created with window w returns exactly the same results, to the last bit, as one created without a window (window 0).", "quantifier": "all windows, all configurations, all histories that never exceed the window, all arithmetics including rounding", "why_tests_cant": "Relates two instances over all histories and bit-exactly in every arithmetic; tests compare with rounded constants.", "anchors": ["moment/core.go: UnsafePush", "joint/core.go: UnsafePush", "quantile/quantile.go: Push", "quantile/heap_median.go: Push", "minmax/max.go: Push", "minmax/min.go: Push"]}
{"id": "C90", "title": "A Push that returns an error has no effect", "statement": "Whenever Push returns an error, the metric, core or aggregate is exactly as it was before: all later calls return what they would have returned without it.", "quantifier": "all metrics, cores and aggregates, all histories before the failing call, all arithmetics", "why_tests_cant": "The failing call may come after any history and any later call may show its effect.", "anchors": ["joint/autocov.go: Push", "joint/autocorr.go: Push", "joint/core.go: UnsafePush", "moment/core.go: UnsafePush", "quantile/quantile.go: Push", "quantile/heap_median.go: Push", "minmax/max.go: Push", "minmax/min.go: Push", "aggregate/simple_aggregate.go: Push"]}
{"id": "C91", "title": "Metrics that see the same stream satisfy the classical inequalities", "statement": "For metrics with the same window fed the same stream: Min <= Mean <= Max; (n-1) Std^2 <= n (Max-Mean)(Mean-Min), so Std is at most sqrt(n/(n-1)) times half the range; Max-Min <= sqrt(2(n-1)) Std; no value in the window is further from Mean than (n-1)/sqrt(n) Std; |Median-Mean| <= sqrt((n-1)/n) Std; |Skewness| <= sqrt(n), with equality possible; Kurtosis is at least (n-2)^2/(n(n-1)) Skewness^2 - 2 and at most n-4.", "quantifier": "all windows, all streams of pushes and clears, all Median options with the AVL tree, HeapMedian without window", "why_tests_cant": "Inequalities over all real streams and windows, between independently implemented metrics.", "anchors": ["moment/mean.go", "moment/std.go", "moment/skewness.go", "moment/kurtosis.go", "minmax/min.go", "minmax/max.go", "quantile/median.go", "quantile/heap_median.go"]}
{"id": "C92", "title": "A NaN in the data of a quantile metric is harmless once it has left the window", "statement": "Whatever is pushed, NaN included, Push on Quantile, Median, IQR and HeapMedian does not panic and returns no error, Value returns a value once something was pushed, and after as many further pushes as the window is long the value is that of the window, which no longer contains the NaN.", "quantifier": "for all streams of numbers and NaNs, all windows, all implementations (AVL tree, red-black tree, skip list, two heaps), all interpolations and all quantiles in (0, 1)", "why_tests_cant": "The repository's tests push no NaN. Every comparison with NaN is false, so each ordered container takes its last branch, and whether that branch removes the right node depends on where the NaN happens to sit; a statement about every stream and the state for ever after needs an invariant that does not rely on the order.", "anchors": ["quantile/quantile.go", "quantile/ost/avl/node.go", "quantile/ost/rb/node.go", "quantile/skiplist/skiplist.go", "quantile/heap_median.go"]}
{"id": "C93", "title": "Higher moments are accurate in double precision", "statement": "Without a window, Sum(k) of n values of absolute value at most M differs from the exact sum of the k-th powers of the deviations by at most c(k)·n²·u·M^k, and Moment(k) from the exact moment by at most 3·c(k)·n·u·M^k, where u is the relative accuracy of math.Pow (2^-53 if it is correctly rounded) and c(2), c(3), c(4) are 1920, 23040, 291840. EWMMoment(k) with decay d is off by at most c(k)·u·M^k/d, however many values are pushed.", "quantifier": "for all orders 2 ≤ k ≤ 20, all streams with any number of Clears, all values that are doubles bounded by M ≥ 2^-50, all numbers of values n with c(k)·n·u ≤ 2^k (for EWMMoment: any number of values, all decays d with c(k)·u ≤ 2^k·d), all power functions that are accurate up to u", "why_tests_cant": "The tests compare with a tolerance on a handful of values. The update of the k-th sum uses all lower sums, so rounding errors of the lower orders feed into the higher ones at every push; that they grow like n² and not exponentially in n, and that exponential weighting forgets them, is a statement about all stream lengths.", "anchors": ["moment/core.go", "moment/moment.go", "moment/ewmmoment.go"]}
{"id": "C94", "title": "Data of moderate size never overflow", "statement": "In IEEE double arithmetic with infinities and NaN, as long as the values pushed are finite and of moderate size no infinity and no NaN appears: Mean (any window) is finite for values up to 2^1019, the sum of squared deviations (any window) while 900·(n+1)·M² < 2^1024, Sum(k) and Moment(k) without a window while 8·2^k·n·(1+(2M)^k) < 2^1024, EWMMoment(k) while 8·2^k·(1+(2M)^k) < 2^1024 for any number of values; and the results satisfy the same error bounds as in arithmetic without overflow. Such limits are needed: the mean of -2^1023 and 2^1023 is +Inf, and NaN after one more value.", "quantifier": "for all orders 2 ≤ k ≤ 20, all window sizes where a window is allowed, all decays, all streams with any number of Clears and n values that are doubles bounded by M (n and M limited as in C69, C82, C93), all power functions of the accuracy assumed there", "why_tests_cant": "No test feeds large values. Every intermediate result of the update (powers of counts, coefficients, powers of deviations, partial sums of the binomial expansion, and the states between evicting and adding) has to stay in range at every push of every stream; a running example shows neither where the limit lies nor that there is none below it.", "anchors": ["moment/core.go", "moment/moment.go", "moment/mean.go", "moment/ewmmoment.go"]}
{"id": "C95", "title": "The rounding errors of Mean do not add up", "statement": "For each metric there is a constant C such that Mean is within C*2^-53 times the largest value pushed since Clear of the exact mean (weighted mean for EWMA, mean of the window with a window), however many values have been pushed.", "quantifier": "for all streams of float64 values of any length, with any calls of Clear, in binary64 rounding", "why_tests_cant": "Errors of one unit in the last place per push show only after billions of values, and only for streams that keep rounding in the same direction; no test runs that long.", "anchors": ["moment/core.go:106-185", "moment/mean.go", "moment/ewma.go", "complexity.md"]}
{"id": "C96", "title": "The variance is zero exactly when all values are equal, in floating point", "statement": "Sum(2), Moment(2) and Std of the values since Clear (in the window) are 0 if and only if all of them are equal, in spite of rounding; Skewness and Kurtosis, which divide by powers of the variance, are therefore NaN exactly for constant data. Without a window Sum(2) never decreases when more values are pushed.", "quantifier": "all histories of Push and Clear, all windows and decays, all finite float64 values", "why_tests_cant": "Tests use a few friendly values; whether rounding, cancellation or underflow ever turns a positive variance into 0, or a zero one into a positive one, depends on all possible data and histories.", "anchors": ["moment/core.go:97-182", "moment/moment.go:72-90", "moment/std.go:61-72", "moment/skewness.go:79-106", "moment/kurtosis.go:79-106"]}
{"id": "C97", "title": "Std, Skewness and Kurtosis are accurate in floating point for data that are not far from 0 in standard deviations", "statement": "Without a window and decay, for n values since the last Clear bounded by M, where M is at most k population standard deviations, and arithmetic, math.Sqrt and math.Pow with relative errors at most u: Std has a relative error of at most 6000*n*u*k^2, Skewness (n >= 3) an error of at most 3*10^5*n*u*k^3 and Kurtosis an error of at most 10^6*n*u*k^4, provided 6000*n*u*k^2 <= 1/100. The dependence on k cannot be dropped: for data far from 0 Kurtosis can be wrong by more than 1 and Skewness can have the wrong sign.", "quantifier": "all histories of Push and Clear, all float64 values from -M to M with M >= 2^-50, all k >= 1, all u from 2^-53 to 2^-12", "why_tests_cant": "Tests compare a few values with a tolerance; the error of a ratio of accumulated sums depends on all data, on their number and on how far they are from 0.", "anchors": ["moment/core.go:97-182", "moment/std.go:61-72", "moment/skewness.go:79-106", "moment/kurtosis.go:79-106"]}
{"id": "C98", "title": "Corr is accurate in floating point for points that are not far from the origin in standard deviations", "statement": "Without a window, for N points since the last Clear whose coordinates are bounded by M1 and M2, where both bounds are at most k population standard deviations of their coordinate, Corr in float64 (with a square root of relative error 2^-53) differs from Pearson's correlation by at most 10*(N+30)*2^-53*k^2, provided 2*(N+40)*2^-53*k^2 <= 1/100. The dependence on k cannot be dropped: for points far from the origin Corr and Cov can have the wrong sign.", "quantifier": "all histories of Push (with any number of arguments) and Clear with at most 2^43 points, all float64 coordinates, all M1, M2 >= 2^-200, all k >= 1", "why_tests_cant": "Tests compare a few points with a tolerance; the error of a quotient of accumulated sums depends on all data, on their number and on how far they are from the origin.", "anchors": ["joint/core.go:113-195", "joint/corr.go:77-106", "joint/cov.go:72-89"]}
{"id": "C99", "title": "The example programs print a value for each metric, and the printed values are the ones the documentation promises", "statement": "Each program in examples/ pushes its data to each of its metrics, and either terminates with a fatal error or prints a table; it prints one if every metric accepts the data and has a finite value. A printed table shows under each metric name the value of the last metric with that name, as if that metric had been used alone, and nothing else. With n pushes 0, ..., n-1 instead of 100: examples/moment prints a table exactly for n >= 3, with mean (n-1)/2 and standard deviation sqrt(n(n+1)/12), and for n >= 5 variance 5/2, skewness 0, kurtosis -1.3 over the last five; examples/minmax prints, for any data without infinities, the least of the last five and the greatest; examples/quantile prints for n >= 3 the median (n-1)/2, the first quartile n-5/2 and the median n-2 of the last three; examples/joint prints a table exactly for n >= 6, with correlation (n-1)*sqrt(15/((2n-1)(8n-11))), covariance 5(n-3) of the last five points and, for n >= 14, the autocorrelation (lag 4, window 10) in closed form.", "quantifier": "all numbers of pushes; all lists of metrics and data for the common push/values/print structure; all increasing data for examples/quantile; all data without infinities for examples/minmax; all draws of the random source", "why_tests_cant": "The programs have no tests, and a run shows one number of pushes; for which numbers of pushes a table can be printed at all, and what it shows, needs every step of every metric used.", "anchors": ["examples/moment/main.go:16-120", "examples/minmax/main.go:15-94", "examples/quantile/main.go:15-96", "examples/joint/main.go:14-142"]}
{"id": "C100", "title": "A windowed HeapMedian forgets what has left the window", "statement": "With a window w >= 2, whatever was pushed before, once w further values have been pushed HeapMedian reports their median; a value that has left the window has no influence any more.", "quantifier": "all windows w >= 2, all streams", "why_tests_cant": "Tests push a dozen values and compare one result; whether an old value can stay for ever, for every window and every continuation of the stream, is a statement about infinitely long streams.", "anchors": ["quantile/heap_median.go:64-113", "quantile/heap_median.go:115-124", "quantile/heap/heap.go:97-105"]}
{"id": "C101", "title": "Order statistics follow strictly increasing transformations of the data", "statement": "If every value of a stream is replaced by its image under a strictly increasing function (another unit, a logarithm), then the containers, Quantile with Lower, Higher or Nearest, HeapMedian on windows of odd size, Max and Min give the same errors and the image of the result, whatever the history.", "quantifier": "all strictly increasing functions, all histories, windows, containers, level draws, quantiles and index arithmetics", "why_tests_cant": "Tests compare single results on fixed data; that the code uses nothing but comparisons of the data on every path is a statement about all inputs and all functions.", "anchors": ["quantile/ost/avl/node.go", "quantile/ost/rb/node.go", "quantile/skiplist/skiplist.go", "quantile/quantile.go:67-146", "quantile/heap_median.go:64-147", "minmax/max.go:37-104", "minmax/min.go:37-104"]}
{"id": "C102", "title": "Quantile, Median, IQR and HeapMedian never produce an infinity or a NaN from values below 2^1023", "statement": "On finite binary64 values below 2^1023 in absolute value, with every container, window, interpolation method and quantile, Quantile, Median, IQR and HeapMedian in IEEE arithmetic with overflow give exactly the results and errors of arithmetic without overflow: always finite numbers, with the bounds of C71. The bound 2^1023 cannot be enlarged.", "quantifier": "all histories of such values, all containers, windows, options, level draws, quantiles, all windows of at most 2^53 values", "why_tests_cant": "Tests use small numbers; that no intermediate sum, product or difference overflows is a statement about all pairs of values that any history can bring next to each other.", "anchors": ["quantile/quantile.go:94-143", "quantile/median.go:49-55", "quantile/iqr.go:47-62", "quantile/heap_median.go:127-147"]}
{"id": "C103", "title": "EWMStd, EWMCov and EWMCorr stay accurate for ever", "statement": "In binary64, with a math.Pow of relative error u, EWMCov differs from the exponentially weighted covariance by at most 200*(u/decay)*M1*M2, where M1 and M2 bound the coordinates. With a square root of relative error u, and data of at most kappa weighted standard deviations, EWMStd has relative error at most 2000*(u/decay)*kappa^2 and EWMCorr is off by at most 4400*(u/decay)*kappa^2. None of these bounds grows with the number of values pushed.", "quantifier": "all histories of pushes (also of the wrong length) and clears, of any length, all decays, all bounded binary64 data", "why_tests_cant": "A test compares a few values with a tolerance; that the rounding errors of an unbounded stream do not accumulate is a statement about all lengths.", "anchors": ["joint/ewmcov.go:69-80", "joint/ewmcorr.go:74-103", "moment/ewmstd.go:56-66", "joint/core.go:202-268", "moment/core.go:131-158"]}
{"id": "C104", "title": "The exponentially weighted metrics forget their past at the rate of the decay", "statement": "Take two EWMA metrics of the same decay d with arbitrary histories (calls before the last Clear play no role) whose values are at most M, and push the same n values into both: their values then differ by at most 2*M*(1-d)^n. The same holds for EWMMoment(k) with (k+2)*(2M)^k*(1-d)^n, for EWMStd with 4*M*sqrt((1-d)^n), for EWMCov with 16*M1*M2*(1-d)^n, and for EWMCorr with 52*kappa^2*(1-d)^n while 16*kappa^2*(1-d)^n <= 1/100, M1 and M2 being at most kappa weighted standard deviations (without this condition EWMCorr need not forget: points that do not move any more leave it at 1 or -1 for ever). In binary64 the bounds hold up to twice the rounding errors of C69, C93 and C103, which do not depend on n: a disturbance of the past is never amplified.", "quantifier": "all pairs of histories of any length, all common continuations, all decays in (0,1), k from 1 to 20 (exact) or 2 to 20 (rounded)", "why_tests_cant": "It compares all pairs of pasts over continuations of any length; a recurrence that keeps a stale term or amplifies rounding errors looks right on short streams.", "anchors": ["moment/core.go:131-158", "joint/core.go:202-268", "moment/ewma.go", "moment/ewmmoment.go:73-84", "moment/ewmstd.go:56-66", "joint/ewmcov.go:69-80", "joint/ewmcorr.go:74-103"]}
{"id": "C105", "title": "Covariances of data of moderate size never overflow", "statement": "In binary64 with infinities and NaN, for Cov, EWMCov and the sums of products and of squares of any joint core without a window: as long as all coordinates since the last Clear are finite numbers of absolute value at most M (M >= 1) and 100000*(N+1)*M^2 < 2^1024 for N points (without a decay) or 100000*M^2 < 2^1024 (with a decay, for any number of points), no infinity and no NaN ever appears in the result, and the result is as accurate as C83, C98 and C103 say. Without a bound this fails: the covariance of (-2^1023, 0) and (2^1023, 0) is NaN although it is 0. With a window of any size the sums of products and of squares are finite as well and within 500*N*(N+1)*2^-53*M^2 of the exact ones, as long as 10^8*(N+1)*M^2 < 2^1024.", "quantifier": "all streams of points of the given size with Clear and with points of a wrong arity, all numbers of variables, all positions of the variables, all windows (up to 2^43 points), all decays in (0,1) with 480*u/d <= 1, all power functions of relative error u", "why_tests_cant": "Whether some intermediate quantity (a difference to a running mean, a product of powers, a coefficient, the sum) overflows depends on the whole stream; tests use small numbers.", "anchors": ["joint/core.go:202-268", "joint/cov.go:72-89", "joint/ewmcov.go:69-80"]}
{"id": "C106", "title": "Autocov and Autocorr are to the bit Cov and Corr of the lagged pairs", "statement": "Whatever the arithmetic, lag and window: no Push on an Autocov or Autocorr fails, and Value returns, to the bit, what Cov or Corr returns after being given the pairs (x_t, x_{t-lag}) of the values since the last Clear; it is an error exactly until lag+1 values have been seen. Clear gives back exactly the state after Init. Hence in binary64 the global Autocov of N pairs of values of size at most M is within 8(N+22)*2^-53*M^2 of the sample autocovariance, also in the presence of overflow when 100000*(N+1)*M^2 < 2^1024, and the global Autocorr is as accurate as Corr. Negating all values changes no bit. With a window this accuracy fails: Autocov with lag 0 and window 2 is negative after 0.1, 0.7, 0.7, and one NaN or infinity makes every later value NaN until Clear.", "quantifier": "all arithmetics (any functions for the operations), all lags, all windows, all sequences of Push and Clear; for the accuracy all streams of values of the given size", "why_tests_cant": "Equality to the bit for every arithmetic, lag, window and stream, and error bounds for streams of any length, cannot be sampled; tests compare a few short streams with a tolerance.", "anchors": ["joint/autocov.go:70-130", "joint/autocorr.go:70-130", "joint/core.go:202-268", "joint/cov.go:72-89", "joint/corr.go:77-106"]}
{"id": "C107", "title": "Std, Skewness, Kurtosis, Corr and their relatives stay accurate in full IEEE arithmetic", "statement": "In binary64 with overflow, infinities and NaN, for metrics without a window: Std, EWMStd, Skewness (at least 3 values), Kurtosis, Corr, EWMCorr and Autocorr return a finite number within the bounds of C97, C98, C103 and C106 of the exact value (for instance 6000*n*u*k^2 relative for Std, 10(N+30)*2^-53*k^2 for Corr, where M bounds the data and is at most k standard deviations), as long as the data is of moderate size: 32n(1+4M^2), 64n(1+8M^3), 128n(1+16M^4) < 2^1024 for Std, Skewness and Kurtosis, 32(1+4M^2) < 2^1024 for EWMStd, 100000((N+1)M^2)^2 < 2^1024 for Corr and Autocorr, 100000*M^4 < 2^1024 for EWMCorr; neither the core nor the formula overflows or divides by zero. For larger data this fails although the variance is nowhere near overflow: the Kurtosis of 0, 2^300, 0, 2^300 is NaN, that of seven zeros and 2^256 is +Inf, the Corr of (0,0), (2^300,2^300) is 0.", "quantifier": "all streams of values or points bounded by a binary64 number M (at least 2^-50; at least 1 for the correlations), with Clear and with points of wrong arity rejected, such that M <= k standard deviations and the rounding error is small against the spread (6000*n*u*k^2 <= 1/100 for the moments, 2(N+40)*2^-53*k^2 <= 1/100 for Corr, 1920*(u/d)*k^2 <= 1/100 for the weighted ones); all lags; all decays d in (0,1); all power functions and square roots of relative error u <= 2^-12 (2^-53 for Corr and Autocorr)", "why_tests_cant": "Overflow of an intermediate result and the accumulation of rounding errors depend on the whole stream; tests compare short streams of small numbers.", "anchors": ["moment/std.go:62-72", "moment/skewness.go:79-106", "moment/kurtosis.go:79-106", "moment/ewmstd.go:56-66", "joint/corr.go:77-106", "joint/ewmcorr.go:73-104", "joint/autocorr.go:70-130"]}
{"id": "C108", "title": "Larger data give larger results, close data give close results", "statement": "Feed two metrics of the same kind by the same calls with two streams. If each value of one is at most epsilon above the corresponding value of the other, so is each result of Min, Max, Quantile, Median, HeapMedian, Mean and EWMA (epsilon = 0: monotonicity). If the streams differ by at most epsilon everywhere, EWMStd differs by at most epsilon, Std of n values by at most epsilon*sqrt(n/(n-1)), IQR by at most 2*epsilon. Monotonicity holds also in binary64.", "quantifier": "all pairs of histories of Push and Clear of the same shape, all windows, interpolation methods, arguments of Value and decays", "why_tests_cant": "A statement on all pairs of streams; each test sees one stream.", "anchors": ["quantile/quantile.go:93-144", "quantile/iqr.go:47-62", "quantile/median.go", "quantile/heap_median.go", "minmax/max.go", "minmax/min.go", "moment/mean.go", "moment/ewma.go", "moment/std.go", "moment/ewmstd.go"]}
{"id": "C109", "title": "Std, Corr and Autocorr with a window are accurate while the drift is small, and one outlier is never forgotten", "statement": "In binary64, let N values have been pushed since the last Clear, all of absolute value at most M, let the window hold L >= 2 of them, and let M be at most kappa standard deviations of the window. With delta = 250*N*2^-53*kappa^2 at most 1/100, the variance and Std have relative errors at most 2*delta, and Corr and Autocorr are off by at most 4*delta. M has to bound the values that have left the window, too: after 2^60, a Mean with a window of 3 that is fed 1, 2, 3 over and over stays above 43 for ever and the variance above 1240, and Corr stays above 9/10 on points with correlation -1. The same holds in full IEEE arithmetic, for Std as long as 900*(N+1)*M^2 < 2^1024, for Corr and Autocorr as long as M >= 1 and 10^8*((N+1)*M^2)^2 < 2^1024.", "quantifier": "all windows, all histories of at most 2^43 pushes since the last Clear (also with pushes of the wrong arity for Corr), all lags, all correctly rounded powers and square roots; the counterexamples for every number of repetitions", "why_tests_cant": "The errors accumulate over arbitrarily long histories, and that they never go away is a claim about unbounded streams.", "anchors": ["moment/core.go:75-186", "moment/std.go:62-72", "joint/core.go:89-342", "joint/corr.go:77-106", "joint/autocorr.go:70-119"]}
{"id": "C110", "title": "Cov, Autocov and the variance with a window: the error is bounded for all data, and large results have the right sign", "statement": "In binary64, let N points have been pushed since the last Clear, with coordinates of absolute value at most M1 and M2, and let the window hold L >= 2 of them. Then Cov is off by at most 505*N*2^-53*M1*M2, linear in the number of pushes and whatever the length of the window; the same holds for Autocov (N lagged pairs, M1 = M2 = M) and for the Moment of order 2. If the exact covariance is larger in absolute value than this bound, Cov and Autocov have its sign. The bound has to cover the values that have left the window: after (2^60, 2^60), a Cov with window 3 that is fed (1,3), (2,2), (3,1) over and over stays 1281 for ever instead of -1. No infinity or NaN appears and the same bounds hold in full IEEE arithmetic, for the Moment of order 2 as long as 900*(N+1)*M^2 < 2^1024, for Cov and Autocov as long as M1 = M2 = M >= 1 and 10^8*(N+1)*M^2 < 2^1024. For larger values this fails: with a window of 2, Cov of (2^600, 2^600), (1, 2), (3, 5) is NaN.", "quantifier": "all windows, all histories of at most 2^43 pushes since the last Clear (also with pushes of the wrong arity for Cov), all lags, all data (no condition on their spread), all correctly rounded powers; the counterexample for every number of repetitions", "why_tests_cant": "The errors accumulate over arbitrarily long histories, and that they never go away is a claim about unbounded streams.", "anchors": ["moment/core.go:75-186", "moment/moment.go:60-90", "joint/core.go:89-342", "joint/cov.go:72-89", "joint/autocov.go:70-125"]}
{"id": "C111", "title": "What Approx asserts", "statement": "test.Approx(x, y) passes only if x and y agree to 9 decimals (differ by at most 1e-9), and passes whenever they are equal up to rounding; NaN passes against nothing; numbers between two that pass against each other pass, too; ApproxSlice passes iff the lengths agree and all elements pass.", "quantifier": "all binary64 numbers, infinities and NaN", "why_tests_cant": "The helper decides what all the numeric tests of the project mean; its rounding grid and its overflow depend on the magnitude of the arguments, which no test of the helper varies.", "anchors": ["util/test/approx.go: roundFloat, Approx, ApproxSlice"]}
