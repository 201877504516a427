{"id": "C01", "title": "Version comparison is one total preorder", "statement": "For any accepted version strings a, b, c: exactly one of Version(a)<Version(b), ==, > holds; <=, >= are the corresponding unions; the order is reflexive and transitive.", "quantifier": "all triples of accepted version strings, any number of components", "why_tests_cant": "Transitivity and totality range over all triples of unbounded strings mixing numbers, letters and keywords.", "anchors": ["pisi/version.py:Version.compare", "pisi/version.py:VersionItem"]}
{"id": "C02", "title": "Comparing versions has no lasting effect on later comparisons", "statement": "Version.compare pads its operands in place, yet after any history of comparisons every pair of Version objects still compares exactly as freshly parsed ones would, and a version equals itself extended with '.0' components.", "quantifier": "all version pools and all finite histories of comparisons", "why_tests_cant": "The state space is every interleaving of comparisons over shared mutable objects.", "anchors": ["pisi/version.py:Version.compare"]}
{"id": "C03", "title": "Suffix and letter ranking of versions", "statement": "For the same base version: alphaN < betaN' < preN < rcN < mN < (plain) < pN for all N; within one keyword larger numbers are newer; a trailing letter makes a component newer than the bare number; leading-zero spelling of numbers is irrelevant.", "quantifier": "all bases, all suffix numbers, all letters", "why_tests_cant": "Unbounded number of bases and numeric suffixes.", "anchors": ["pisi/version.py:keywords", "pisi/version.py:VersionItem.__init__", "pisi/version.py:Version.__init__"]}
{"id": "C04", "title": "Version strings are accepted exactly by a fixed grammar", "statement": "Version(s) succeeds exactly when every '.', '-' or '_' separated piece is [keyword]number or [keyword]number followed by one letter; every other piece raises ValueError and never yields a Version.", "quantifier": "all ASCII strings", "why_tests_cant": "Acceptance must be settled for all strings, including empty pieces, lone letters and keywords without a number.", "anchors": ["pisi/version.py:Version.__init__", "pisi/version.py:VersionItem.__init__", "pisi/util/fun.py:multisplit"]}
{"id": "C05", "title": "A dependency is satisfied iff every stated constraint holds", "statement": "Dependency.satisfies(name, version, release) is true iff each given version/versionFrom/versionTo/release/releaseFrom/releaseTo bound holds in the version order; absent bounds never matter, and tightening a bound never makes an unsatisfied dependency satisfied.", "quantifier": "all dependencies (any subset of bounds) and all candidate versions and releases", "why_tests_cant": "64 combinations of bounds times unbounded versions.", "anchors": ["pisi/data/dependency.py:Dependency.satisfies", "pisi/data/dependency.py:dict_satisfies_dep"]}
{"id": "C06", "title": "Topological sort is sound", "statement": "When Digraph.topological_sort returns, the result lists each vertex of the graph exactly once and places u before v for every edge u->v.", "quantifier": "all finite directed graphs and all iteration orders of the vertex and adjacency sets", "why_tests_cant": "All graphs of all sizes and every hash-set iteration order.", "anchors": ["pisi/data/graph.py:Digraph.topological_sort", "pisi/data/graph.py:Digraph.dfs", "pisi/data/graph.py:Digraph.dfs_visit"]}
{"id": "C07", "title": "Cycle detection is exact", "statement": "topological_sort raises CycleException iff the graph has a directed cycle, and cycle_free() returns True iff it has none; the search always terminates.", "quantifier": "all finite directed graphs and all set iteration orders", "why_tests_cant": "Completeness of cycle detection quantifies over all graphs.", "anchors": ["pisi/data/graph.py:Digraph.cycle_free", "pisi/data/graph.py:Digraph.dfs_visit", "pisi/data/graph.py:CycleException"]}
{"id": "C08", "title": "A reported cycle is a cycle", "statement": "The vertex list carried by CycleException is a closed walk of the graph: consecutive vertices are edges and the last has an edge to the first.", "quantifier": "all cyclic graphs and all set iteration orders", "why_tests_cant": "The path depends on the traversal order and on the graph.", "anchors": ["pisi/data/graph.py:CycleException", "pisi/data/graph.py:Digraph.dfs_visit"]}
{"id": "C09", "title": "Install plan is dependency-closed and minimal", "statement": "When plan_install_pkg_names(A) returns an order, it contains no duplicates and consists exactly of A together with everything reachable from A through dependencies not already satisfied by the installed system.", "quantifier": "all repositories, installed systems, request sets and set iteration orders", "why_tests_cant": "Reachability over unbounded dependency graphs.", "anchors": ["pisi/op/install.py:plan_install_pkg_names", "pisi/data/pgraph.py:PGraph.add_dep"]}
{"id": "C10", "title": "Install plan orders dependencies before dependents", "statement": "In the returned order every package appears after each package it depends on, except for dependencies the installed system already satisfies.", "quantifier": "all repositories, installed systems, request sets and set iteration orders", "why_tests_cant": "Every graph and every set order.", "anchors": ["pisi/op/install.py:plan_install_pkg_names", "pisi/data/graph.py:Digraph.topological_sort"]}
{"id": "C11", "title": "Install planning fails only for stated reasons", "statement": "plan_install_pkg_names terminates for every repository and fails only if a needed package is missing from the repositories or the unsatisfied dependencies form a cycle; in these two cases it always fails.", "quantifier": "all repositories, installed systems and requests", "why_tests_cant": "Termination and error-completeness over all inputs.", "anchors": ["pisi/op/install.py:plan_install_pkg_names", "pisi/db/package.py:PackageDB.get_package"]}
{"id": "C12", "title": "Executing an install plan leaves every dependency satisfied", "statement": "If planning succeeds then installing the planned packages in order never meets an unsatisfied dependency: at each step all dependencies of the package being installed are satisfied by what is installed.", "quantifier": "all repositories, installed systems, requests, and every prefix of the execution", "why_tests_cant": "Every intermediate state of every plan.", "anchors": ["pisi/op/install.py:plan_install_pkg_names", "pisi/op/install.py:Install.check_relations", "pisi/data/dependency.py:installable"]}
{"id": "C13", "title": "Remove plan is exactly the installed reverse-dependency closure", "statement": "plan_remove(A) returns, without duplicates, exactly A plus all packages from which A is reachable via recorded, installed and currently satisfied dependencies.", "quantifier": "all installed systems, requests, set iteration orders", "why_tests_cant": "Unbounded reverse dependency graphs.", "anchors": ["pisi/op/remove.py:plan_remove", "pisi/db/package.py:PackageDB.get_rev_deps"]}
{"id": "C14", "title": "Removal never breaks a dependency midway", "statement": "In the order returned by plan_remove every package is removed before each package it depends on.", "quantifier": "all acyclic installed systems, requests and set iteration orders", "why_tests_cant": "Depends on all graphs and on hash order.", "anchors": ["pisi/op/remove.py:plan_remove"]}
{"id": "C15", "title": "Remove planning never fails on dependency cycles", "statement": "For every installed system, including cyclic dependencies, plan_remove returns an order (it never raises CycleException).", "quantifier": "all installed systems and requests", "why_tests_cant": "Includes all cyclic graphs.", "anchors": ["pisi/op/remove.py:plan_remove"]}
{"id": "C16", "title": "Upgrade plan is closed and ordered", "statement": "When plan_upgrade(A) succeeds, the order contains A and, for every planned package reached going forward, each dependency that must change, placed before its dependents; every dependency followed is satisfiable from the repository, otherwise planning fails.", "quantifier": "all repositories, installed systems, requests, eager or not", "why_tests_cant": "Unbounded graphs, two closures, all set orders.", "anchors": ["pisi/op/upgrade.py:plan_upgrade"]}
{"id": "C17", "title": "A package is offered for upgrade iff the repository has something newer", "statement": "is_upgradable(name) is true iff name is installed, available in a repository, and the repository release is greater (or, when both carry build numbers and builds are not ignored, its build number is greater); upgrading to the offered package makes it no longer upgradable.", "quantifier": "all installed/repository version triples and option settings", "why_tests_cant": "All combinations of missing build numbers and arbitrary releases.", "anchors": ["pisi/op/upgrade.py:is_upgradable", "pisi/op/upgrade.py:upgrade_pkg_names"]}
{"id": "C18", "title": "Security-only upgrade selects exactly packages with pending security updates", "statement": "With the security option, upgrade considers exactly the installed packages whose repository history has a security update newer than the installed release.", "quantifier": "all histories and installed releases", "why_tests_cant": "Quantifies over unbounded update histories.", "anchors": ["pisi/op/upgrade.py:upgrade_pkg_names"]}
{"id": "C19", "title": "system.base packages are never removed without bypassing safety", "statement": "Without bypass_safety, after remove(A) no package of system.base that was installed has been removed.", "quantifier": "all installed systems, dependency graphs and requests", "why_tests_cant": "Reverse-dependency closure may reach base packages through any graph.", "anchors": ["pisi/op/remove.py:remove"]}
{"id": "C20", "title": "Reverse-dependency records match installed dependencies", "statement": "At any time, y is listed as a reverse dependency of x in the installed database iff y is installed and depends on x.", "quantifier": "all histories of package additions and removals", "why_tests_cant": "A history invariant.", "anchors": ["pisi/db/package.py:PackageDB.add_package", "pisi/db/package.py:PackageDB.remove_package", "pisi/db/package.py:PackageDB.get_rev_deps"]}
{"id": "C21", "title": "Installed-state tracking follows install/remove/purge", "statement": "is_installed(p) is true iff the last effective install/remove/purge of p was an install, installing an installed package is rejected and changes nothing, and the recorded version is that of the last install.", "quantifier": "all histories of InstallDB operations", "why_tests_cant": "Refinement over unbounded histories.", "anchors": ["pisi/db/install.py:InstallDB.install", "pisi/db/install.py:InstallDB.remove", "pisi/db/install.py:InstallDB.purge", "pisi/db/install.py:InstallDB.is_installed"]}
{"id": "C22", "title": "Pending-configuration list is exactly the installed unconfigured packages", "statement": "list_pending() contains p iff p is installed and was installed with deferred configuration and not configured since; clear_pending succeeds for each of them.", "quantifier": "all histories of InstallDB operations", "why_tests_cant": "History invariant across two tables.", "anchors": ["pisi/db/install.py:InstallDB.list_pending", "pisi/db/install.py:InstallDB.clear_pending", "pisi/db/install.py:InstallDB.remove"]}
{"id": "C23", "title": "Pending packages are configured in dependency order", "statement": "configure_pending configures each pending package once and after all pending packages it depends on.", "quantifier": "all pending sets and dependency graphs", "why_tests_cant": "All graphs and set orders.", "anchors": ["pisi/op/configurepending.py:configure_pending"]}
{"id": "C24", "title": "File ownership records are accurate", "statement": "get_file(path) returns the package that most recently registered path and has not unregistered it; unregistering one package's files never changes the record of a path owned by another package.", "quantifier": "all histories of add_files/remove_files", "why_tests_cant": "History refinement, including shared paths.", "anchors": ["pisi/db/files.py:FilesDB.add_files", "pisi/db/files.py:FilesDB.remove_files", "pisi/db/files.py:FilesDB.has_file"]}
{"id": "C25", "title": "Repository item database behaves as a map from (name, repository)", "statement": "After any history of add_item, remove_item and remove_repo, looking an item up in a given repository returns the last item stored there and not removed; operations on one repository never affect another.", "quantifier": "all histories, names and repositories", "why_tests_cant": "Refinement over unbounded histories.", "anchors": ["pisi/db/itembyrepo.py:ItemByRepoDB"]}
{"id": "C26", "title": "Lookup across repositories honours repository priority", "statement": "An unqualified lookup returns the item of the first repository in priority order that has it, never an item from the third-party or installed tracking stores; existence and retrieval agree.", "quantifier": "all database states and repository orders", "why_tests_cant": "All combinations of repositories and tracking entries.", "anchors": ["pisi/db/itembyrepo.py:ItemByRepoDB.get_item_repo", "pisi/db/itembyrepo.py:not_just_tracking", "pisi/db/itembyrepo.py:ItemByRepoDB.has_key"]}
{"id": "C27", "title": "Repository list stays consistent", "statement": "After any history of add_repo/remove_repo, list() has no duplicates and contains exactly the repositories that can be looked up; adding at position i places the repository at index i keeping the relative order of the rest; a rejected add changes nothing.", "quantifier": "all histories and positions", "why_tests_cant": "History invariant.", "anchors": ["pisi/db/repo.py:RepoDB.add_repo", "pisi/db/repo.py:RepoDB.remove_repo", "pisi/db/repo.py:RepoDB.list"]}
{"id": "C28", "title": "Updating an index replaces exactly that repository", "statement": "After Index.update_db(repo), the packages of that repository are exactly those in the index, and the packages of every other repository and of the installed system are unchanged.", "quantifier": "all database states and indices", "why_tests_cant": "Frame property over all states.", "anchors": ["pisi/data/index.py:Index.update_db", "pisi/db/package.py:PackageDB.remove_repo"]}
{"id": "C29", "title": "Conflict calculation is exact", "statement": "calculate_conflicts(order) reports as conflicting with the system exactly the installed packages that some package in the order conflicts with, and as mutually conflicting exactly the packages in the order involved in a conflict between members of the order.", "quantifier": "all orders, conflict declarations and installed sets", "why_tests_cant": "All conflict graphs.", "anchors": ["pisi/op/conflict.py:calculate_conflicts", "pisi/op/conflict.py:check_conflict"]}
{"id": "C30", "title": "No conflicting package remains when installation proceeds", "statement": "If check_conflicts(order) lets the operation proceed (not a dry run), no installed package conflicting with the order is still installed.", "quantifier": "all orders, installed sets, system.base sets and user answers", "why_tests_cant": "Interaction of conflicts, safety switch and user answers.", "anchors": ["pisi/op/conflict.py:check_conflicts", "pisi/op/remove.py:remove"]}
{"id": "C31", "title": "User-modified configuration files survive reinstall and upgrade", "statement": "After a successful (re)install, a configuration file the user changed still has the user's content at its path, and the packaged version is available beside it as .newconfig; unchanged configuration files get the packaged content.", "quantifier": "all file systems, old and new file lists and contents", "why_tests_cant": "All combinations of file lists, hashes and disk contents.", "anchors": ["pisi/op/install.py:Install.extract_install"]}
{"id": "C32", "title": "Configuration file content is never lost at a crash point", "statement": "At every point during (re)install the content of each user-modified configuration file is present on disk at its path or at the backup path.", "quantifier": "all crash points of the extraction sequence", "why_tests_cant": "Every prefix of the operation sequence.", "anchors": ["pisi/op/install.py:Install.extract_install"]}
{"id": "C33", "title": "Removing a package keeps permanent files and modified configuration files", "statement": "Removing a package deletes its ordinary files, keeps every file marked permanent and every configuration file whose content differs from the packaged one, and deletes unmodified configuration files.", "quantifier": "all file lists and disk contents", "why_tests_cant": "All disk states.", "anchors": ["pisi/op/remove.py:Remove.remove_file"]}
{"id": "C34", "title": "Removing a package never deletes files owned by another package", "statement": "If a path is recorded as owned by a different package, removing this package leaves the file in place.", "quantifier": "all ownership databases, destination directories and file lists", "why_tests_cant": "All databases and path spellings.", "anchors": ["pisi/op/remove.py:Remove.remove_file", "pisi/db/files.py:FilesDB.has_file"]}
{"id": "C35", "title": "Database updates of an operation are all-or-nothing", "statement": "If any error occurs while the databases are updated inside a transaction helper, none of its updates are visible afterwards and the original error is reported; on success all are.", "quantifier": "all update sequences and failure points", "why_tests_cant": "Every failure point.", "anchors": ["pisi/db/dbshelve.py:DBShelf.txn_proc", "pisi/context.py:txn_proc"]}
{"id": "C36", "title": "Downloads are atomic", "statement": "At every point of a download the destination file is either absent/old or a completely downloaded non-empty file; partial data is only visible under the .part name.", "quantifier": "all crash points, all data sizes and resume states", "why_tests_cant": "Every crash point.", "anchors": ["pisi/fetcher.py:Fetcher.fetch"]}
{"id": "C37", "title": "Mirror fallback tries every mirror in order", "statement": "Fetching through mirrors succeeds iff some mirror serves the file and uses the first that does.", "quantifier": "all mirror lists and availability patterns", "why_tests_cant": "Unbounded mirror lists.", "anchors": ["pisi/fetcher.py:fetchFromMirror", "pisi/mirrors.py:Mirrors.get_mirrors"]}
{"id": "C38", "title": "Source archives are unpacked only if the hash matches", "statement": "Unpacking a source archive requires that its content hash equals the recorded one; a cached file with a wrong hash is refetched.", "quantifier": "all cache states and downloads", "why_tests_cant": "All cache states.", "anchors": ["pisi/sourcearchive.py:SourceArchive.fetch", "pisi/sourcearchive.py:SourceArchive.unpack"]}
{"id": "C39", "title": "Search returns exactly the documents matching all terms", "statement": "After any history of add_doc/remove_doc, query(terms) returns exactly the documents that, in some active repository, are indexed under each term.", "quantifier": "all histories and queries", "why_tests_cant": "Refinement over unbounded histories.", "anchors": ["pisi/search/invertedindex.py:InvertedIndex.query", "pisi/search/invertedindex.py:InvertedIndex.add_doc", "pisi/search/invertedindex.py:InvertedIndex.remove_doc"]}
{"id": "C40", "title": "Search results refer to existing packages", "statement": "Every package returned by a package search exists in the package database of that repository.", "quantifier": "all histories of package and repository updates", "why_tests_cant": "Cross-database history invariant.", "anchors": ["pisi/db/package.py:PackageDB.add_package", "pisi/db/package.py:PackageDB.remove_repo", "pisi/op/search.py:search_package_terms"]}
{"id": "C41", "title": "Path helpers obey path algebra", "statement": "join_path/splitpath/makepath/subpath/removepathprefix are mutually consistent: subpath(a,b) iff a's components are a prefix of b's, and then join_path(a, removepathprefix(a,b)) denotes b.", "quantifier": "all path strings", "why_tests_cant": "All strings, including empty components and slashes.", "anchors": ["pisi/util/path.py:splitpath", "pisi/util/path.py:subpath", "pisi/util/path.py:removepathprefix", "pisi/util/path.py:join_path"]}
{"id": "C42", "title": "Prefix and suffix helpers are inverse to concatenation", "statement": "remove_prefix(a, a+b) = b and remove_suffix(a, b+a) = b for all a and b; both refuse strings lacking the prefix/suffix.", "quantifier": "all strings", "why_tests_cant": "All strings including empty ones.", "anchors": ["pisi/util/fun.py:remove_prefix", "pisi/util/fun.py:remove_suffix"]}
{"id": "C43", "title": "Package file names round-trip", "statement": "parse_package_name(package_name(n, v, r, b)) recovers the package name and version for every package name whose later dash-separated parts do not start with a digit and every version starting with a digit.", "quantifier": "all names and versions", "why_tests_cant": "All strings.", "anchors": ["pisi/util/pkg.py:package_name", "pisi/util/pkg.py:parse_package_name"]}
{"id": "C44", "title": "Build numbers never go backwards", "statement": "The build number assigned to a newly built package is at least every build number of the same release found, equals the previous one iff the file contents are unchanged, and otherwise exceeds it by one.", "quantifier": "all sets of existing packages and file lists", "why_tests_cant": "All package collections.", "anchors": ["pisi/op/build.py:Builder.calc_build_no"]}
{"id": "C45", "title": "Staged builds run every phase once and in order", "statement": "build_until(stage) starting from any recorded stage runs exactly the phases after the recorded one up to the requested one, in order.", "quantifier": "all recorded stages, requested stages and interruption histories", "why_tests_cant": "All interruption histories.", "anchors": ["pisi/op/build.py:build_until"]}
{"id": "C46", "title": "Patches are applied before setup, even after an interruption", "statement": "Whenever the setup phase runs, all patches have been applied to the unpacked source.", "quantifier": "all interruption points followed by resumption", "why_tests_cant": "Every crash point.", "anchors": ["pisi/op/build.py:Builder.unpack_source_archive", "pisi/op/build.py:Builder.apply_patches", "pisi/op/build.py:build_until"]}
{"id": "C47", "title": "Unpacked file permissions", "statement": "Unpacking a package gives files the archived rwx bits with owner-read always set, keeps setuid, and never yields bits that were not archived other than owner-read.", "quantifier": "all 16-bit modes", "why_tests_cant": "All modes.", "anchors": ["pisi/archive.py:ArchiveZip.unpack_file_cond"]}
{"id": "C48", "title": "Unpacking stays inside the target directory", "statement": "No archive member is written outside the directory passed to unpack.", "quantifier": "all member names", "why_tests_cant": "All strings, including '..' and absolute names.", "anchors": ["pisi/archive.py:ArchiveZip.unpack_file_cond", "pisi/archive.py:ArchiveZip.unpack_dir_flat"]}
{"id": "C49", "title": "Configuration lookups fall back file -> default -> empty", "statement": "Reading a configuration value returns the file's first value for the key if present, otherwise the built-in default, otherwise the empty string; 'True'/'False' are read as booleans.", "quantifier": "all configuration files, sections and keys", "why_tests_cant": "All file contents.", "anchors": ["pisi/configfile.py:ConfigurationSection"]}
{"id": "C50", "title": "Constants can be set once", "statement": "After any sequence of attempted assignments and deletions a constant keeps the first value assigned; each later attempt raises.", "quantifier": "all histories of assignments", "why_tests_cant": "Histories.", "anchors": ["pisi/oo.py:constant"]}
{"id": "C51", "title": "XML records round-trip", "statement": "Reading back what a record class wrote yields an equal record, for all field values.", "quantifier": "all record schemas and values", "why_tests_cant": "All values and nested schemas.", "anchors": ["pisi/exml/autoxml.py:autoxml"]}
{"id": "C52", "title": "Localised text falls back deterministically", "statement": "str() of a localised text is the text of the current language, else English, else Turkish, else empty.", "quantifier": "all language maps and locales", "why_tests_cant": "All maps.", "anchors": ["pisi/exml/autoxml.py:LocalText"]}
{"id": "C53", "title": "Component expansion", "statement": "expand_components replaces each component name by the packages of that component over all repositories and keeps all other names.", "quantifier": "all name sets and component databases", "why_tests_cant": "All databases.", "anchors": ["pisi/op/component.py:expand_components", "pisi/data/component.py:ComponentDB.get_union_comp"]}
{"id": "C54", "title": "Integrity check reports exactly the corrupted files", "statement": "check(package) lists exactly the recorded files whose on-disk hash differs from the recorded hash or that cannot be read.", "quantifier": "all file lists and disks", "why_tests_cant": "All disk states.", "anchors": ["pisi/op/check.py:check", "pisi/db/install.py:InstallDB.files"]}
{"id": "C55", "title": "Lookup over all stores", "statement": "Looking a name up over all stores (itembyrepo.alldb) returns the entry of the first repository in list order that has it, then the third-party entry, then the installed one; existence and listing over all stores agree with it.", "quantifier": "all database states and names", "why_tests_cant": "All states.", "anchors": ["pisi/db/itembyrepo.py:ItemByRepoDB.get_item_repo", "pisi/db/itembyrepo.py:ItemByRepoDB.order"]}
{"id": "C56", "title": "Component membership is exact", "statement": "In each store a component lists exactly the packages of that store that declare it.", "quantifier": "all histories of package additions and removals", "why_tests_cant": "Histories.", "anchors": ["pisi/data/component.py:ComponentDB.add_package", "pisi/data/component.py:ComponentDB.remove_package", "pisi/db/package.py:PackageDB.add_package"]}
{"id": "C57", "title": "Tracking packages touches only the tracking stores", "statement": "After any history, a package is in the installed or third-party store exactly when it was put there after its last removal, and remove_tracking_package changes no repository entry.", "quantifier": "all histories of the database system", "why_tests_cant": "Histories.", "anchors": ["pisi/db/package.py:PackageDB.remove_tracking_package"]}
{"id": "C58", "title": "Pending configuration can always be completed", "statement": "If every configuration script succeeds and the pending packages have acyclic dependencies, configure_pending returns with nothing pending.", "quantifier": "all histories of installs, removals and purges", "why_tests_cant": "Histories.", "anchors": ["pisi/op/configurepending.py:configure_pending", "pisi/db/install.py:InstallDB.clear_pending"]}
{"id": "C59", "title": "parentpath leads to the parent directory", "statement": "parentpath(p) denotes the location of p with its last component removed, for every path with at least one component.", "quantifier": "all paths", "why_tests_cant": "All path strings, including repeated and trailing separators.", "anchors": ["pisi/util/path.py:parentpath"]}
{"id": "C60", "title": "The package name is recovered from every package file", "statement": "For every package name whose later dash-separated parts do not start with a digit and every version starting with a digit, pure_package_name of the package file name returns the package name, and of a bare package name returns it unchanged.", "quantifier": "all package names, versions, releases and builds", "why_tests_cant": "All names, including names with dashes and digits.", "anchors": ["pisi/util/pkg.py:pure_package_name", "pisi/util/pkg.py:package_name"]}
{"id": "C61", "title": "Package file names identify packages", "statement": "For names whose later dash-separated parts do not start with a digit and dash-free versions and releases starting with a digit: two packages with the same file name have the same name, version, release and build, and is_package_name(file, name) holds exactly for the files of that package.", "quantifier": "all package names, versions, releases and builds", "why_tests_cant": "All pairs of names.", "anchors": ["pisi/util/pkg.py:package_name", "pisi/util/pkg.py:is_package_name"]}
{"id": "C62", "title": "Upgrades delete dropped files", "statement": "Upgrading to a version of a package that no longer contains some files succeeds and deletes those files.", "quantifier": "all file systems, old and new file lists", "why_tests_cant": "All pairs of file lists.", "anchors": ["pisi/op/install.py:Install.extract_install"]}
{"id": "C63", "title": "Database updates of an operation are all or nothing", "statement": "If the database phase of an install or remove operation raises, no database differs from its state before that phase.", "quantifier": "all programs of database reads and writes, all exceptions", "why_tests_cant": "All failure points and exception classes.", "anchors": ["pisi/op/install.py:Install.install", "pisi/op/remove.py:Remove.run"]}
{"id": "C64", "title": "Searches ignore case", "statement": "A package in an active store is found by a term that equals a word of its summary or description up to letter case, in every indexed language.", "quantifier": "all histories of the database system, terms, texts and languages", "why_tests_cant": "All texts, states and languages.", "anchors": ["pisi/search/preprocess.py:preprocess", "pisi/search/__init__.py:query_terms"]}
{"id": "C65", "title": "Texts are indexed by their words", "statement": "The tokens of a text are its maximal runs of non-separator characters, in order; no token contains a separator.", "quantifier": "all texts", "why_tests_cant": "All texts.", "anchors": ["pisi/search/tokenize.py:tokenize"]}
{"id": "C66", "title": "Interrupted downloads can be taken up again", "statement": "Whatever part of the file an earlier attempt left behind, fetching it from a server that serves it succeeds and yields the complete file.", "quantifier": "all contents and all interruption points", "why_tests_cant": "All interruption points.", "anchors": ["pisi/fetcher.py:Fetcher.fetchRemoteFile", "pisi/fetcher.py:Fetcher._test_range_support"]}
{"id": "C67", "title": "The mirrors file is read in order", "statement": "get_mirrors(name) returns the URLs of exactly the non-comment lines that consist of the name and one more word, in the order of the file.", "quantifier": "all mirrors files and names", "why_tests_cant": "All files.", "anchors": ["pisi/mirrors.py:Mirrors._parse", "pisi/mirrors.py:Mirrors.get_mirrors"]}
{"id": "C68", "title": "A download touches only its own files", "statement": "In every state of a download, everything that existed before is unchanged except the destination and the partial file beside it.", "quantifier": "all states, servers, mirror configurations and interruption points", "why_tests_cant": "All crash points.", "anchors": ["pisi/fetcher.py:Fetcher.fetch"]}
{"id": "C69", "title": "A source can be unpacked again", "statement": "Unpacking a source succeeds in every build directory left by earlier, possibly interrupted, builds.", "quantifier": "all sources and histories of builds", "why_tests_cant": "Histories of interrupted builds.", "anchors": ["pisi/sourcearchive.py:SourceArchive.unpack", "pisi/op/build.py:Builder.unpack_source_archive"]}
{"id": "C70", "title": "A missing mandatory action is an error", "statement": "If actions.py does not define the install function the build fails.", "quantifier": "all action scripts", "why_tests_cant": "All scripts; the failure is silent.", "anchors": ["pisi/op/build.py:Builder.run_action_function", "pisi/op/build.py:Builder.run_install_action"]}
{"id": "C71", "title": "Unpacking reproduces the archive", "statement": "After a successful unpack of a package archive every file and link of the archive is in the target directory with its archived content, and everything in the target that no member names is as it was.", "quantifier": "all archives with clean member names and no member below a link, all prior contents of the target", "why_tests_cant": "All archives and all prior directory contents.", "anchors": ["pisi/archive.py:ArchiveZip.unpack_file_cond", "pisi/archive.py:ArchiveZip.unpack"]}
{"id": "C72", "title": "Packing and unpacking keep the mode", "statement": "A file or directory added to a package archive and unpacked from it has the mode it had.", "quantifier": "all modes", "why_tests_cant": "All modes of files and directories.", "anchors": ["pisi/archive.py:ArchiveZip.add_to_archive", "pisi/archive.py:ArchiveZip.unpack_file_cond"]}
{"id": "C73", "title": "Settings take effect", "statement": "An option set in a section of pisi.conf is read with the value given there (the last one, the section before [DEFAULT]); options not set have their built-in default.", "quantifier": "all configuration files, sections and option names", "why_tests_cant": "All files, including repeated sections and options and spellings of names.", "anchors": ["pisi/configfile.py:ConfigurationFile", "pisi/configfile.py:ConfigurationSection"]}
{"id": "C74", "title": "Boolean settings can be switched off", "statement": "An option set to a usual spelling of off (false, no, off, 0) is off.", "quantifier": "all configuration files and options", "why_tests_cant": "All values.", "anchors": ["pisi/configfile.py:ConfigurationSection"]}
{"id": "C75", "title": "The configured compression level is used", "statement": "A number set as compressionlevel in pisi.conf is the level passed to lzma when a package is packed; without it the level is 7.", "quantifier": "all configuration files", "why_tests_cant": "All values.", "anchors": ["pisi/archive.py:ArchiveTar.close", "pisi/configfile.py:BuildDefaults"]}
{"id": "C76", "title": "The bandwidth limit in force", "statement": "Downloads are limited to the limit of the command line if one is given, otherwise to that of the configuration; a limit of 0 or none means no limit.", "quantifier": "all values of option and configuration", "why_tests_cant": "All combinations of values.", "anchors": ["pisi/fetcher.py:Fetcher._get_bandwith_limit"]}
{"id": "C77", "title": "Configured proxies are used", "statement": "The proxy configured for the scheme of a URL is the one handed to the downloader for that scheme, and no other proxy is.", "quantifier": "all configurations and URLs", "why_tests_cant": "All proxy URLs.", "anchors": ["pisi/fetcher.py:Fetcher._get_proxies"]}
{"id": "C78", "title": "All directories are below the destination directory", "statement": "The destination directory is an absolute path and the library, database, cache and temporary directories are below it.", "quantifier": "all options, configured paths and working directories", "why_tests_cant": "All strings.", "anchors": ["pisi/config.py:Config"]}
{"id": "C79", "title": "Unpacking over earlier files succeeds", "statement": "A package archive whose members agree with the target about what is a directory can be unpacked; files and links that are in the way, dangling links included, are replaced, a directory in the place of a link is removed, and the archive can be unpacked a second time with the same contents.", "quantifier": "all archives, targets and earlier contents of the target", "why_tests_cant": "All combinations of earlier contents and archive members.", "anchors": ["pisi/archive.py:ArchiveZip.unpack_file_cond"]}
{"id": "C80", "title": "Mandatory members must be present, optional ones may be missing", "statement": "Reading an XML file in which a mandatory tag or attribute is missing is an error; a missing optional one is not.", "quantifier": "all member declarations and documents", "why_tests_cant": "All documents and nested declarations.", "anchors": ["pisi/exml/autoxml.py:autoxml"]}
{"id": "C81", "title": "A record without errors can be written", "statement": "If errors() of a record reports nothing, write() produces a document.", "quantifier": "all record classes and values", "why_tests_cant": "All values, including zeros and empty strings.", "anchors": ["pisi/exml/autoxml.py:autoxml", "pisi/data/metadata.py:MetaData"]}
{"id": "C82", "title": "What one user can read every user can", "statement": "A document that can be read under one locale is read with the same result under any other.", "quantifier": "all documents and locales", "why_tests_cant": "All pairs of locales and documents.", "anchors": ["pisi/exml/autoxml.py:LocalText.errors"]}
{"id": "C83", "title": "Installing a package leaves the files of other packages alone", "statement": "If installation of a package proceeds, a regular file recorded for another package has the same content at every moment of the installation and afterwards; if the new package contains a file recorded for another package, the installation is refused before anything is changed, unless the user asked to ignore conflicts.", "quantifier": "all file databases, packages (first installations and reinstallations), archive contents, file systems and destinations", "why_tests_cant": "the interplay of records, symbolic links, configuration backups and directories cannot be enumerated; tests install a few packages into an empty root", "anchors": ["pisi/op/install.py:147-163", "pisi/op/install.py:247-309", "pisi/archive.py:244-282", "pisi/op/upgrade.py:165"]}
{"id": "C84", "title": "Replacing a package by an equal or older one needs consent", "statement": "When the user agrees to no question, an installed package is replaced only by a package with a newer version, release or build; a replacement is declined only because the user did not agree to a question about the same or an older package.", "quantifier": "all installed records, packages, distributions, build settings and answers", "why_tests_cant": "the comparison of versions, releases and builds has many combinations; tests answer every question with yes", "anchors": ["pisi/op/install.py:165-223"]}
{"id": "C85", "title": "An offered upgrade is carried out as an upgrade", "statement": "A package that the upgrade list offers (the repository has a newer build or release) passes the reinstallation check as an upgrade, with no question asked.", "quantifier": "all installed records, repository packages, distributions and settings", "why_tests_cant": "two separate pieces of code compare versions by different rules; agreement on all inputs needs a proof", "anchors": ["pisi/op/install.py:165-223", "pisi/op/upgrade.py:42-53"]}
{"id": "C86", "title": "Package files are installed in dependency order", "statement": "Installing package files plans each package of the files once (the last file given for it counts), each after the given packages that meet its dependencies; planning succeeds exactly if the dependencies can be examined and are acyclic, otherwise a cycle is reported.", "quantifier": "all lists of package files and all iteration orders of sets and dictionaries", "why_tests_cant": "all dependency graphs and iteration orders", "anchors": ["pisi/op/install.py:389-492", "pisi/data/dependency.py:68-76"]}
{"id": "C87", "title": "After installing package files their dependencies are satisfied", "statement": "If the dependencies of the given packages can be met by the given files, the installed system and the repositories, installation of the files runs to the end; then each given package is recorded with the metadata of its file and all its dependencies are satisfied.", "quantifier": "all package files, installed systems, repositories and iteration orders", "why_tests_cant": "the state changes with each installed package; tests install one or two files", "anchors": ["pisi/op/install.py:389-492", "pisi/op/install.py:130-140"]}
{"id": "C88", "title": "Installing packages keeps the dependencies of installed packages satisfied", "statement": "A dependency of an installed package that was satisfied before an installation (of files or by name) is satisfied afterwards.", "quantifier": "all installed systems, repositories, package files and iteration orders", "why_tests_cant": "quantifies over all installed packages and all replaced versions", "anchors": ["pisi/op/install.py:389-580"]}
{"id": "C89", "title": "The file list of a package is exactly what its specification lists", "statement": "The recorded files of a built package are exactly the built files, links and empty directories that its listed paths name or contain, without those below a path listed by another package and without static libraries when a separate package is made for them; each path is recorded once.", "quantifier": "all build trees, specifications, results of wildcard expansion and directory orders", "why_tests_cant": "all shapes of trees with links and empty directories, all orders of directory listings", "anchors": ["pisi/op/build.py:593-639", "pisi/op/build.py:69-93", "pisi/util/fs.py:109-191"]}
{"id": "C90", "title": "Collecting the files of a package succeeds", "statement": "If the specification lists absolute paths and the build tree has no empty directory with the name of a static library, the file list of every package is made without an error.", "quantifier": "all build trees and specifications with absolute paths, without separate static packages", "why_tests_cant": "an exception late in a build for some shape of tree cannot be excluded by examples", "anchors": ["pisi/op/build.py:593-639", "pisi/util/fs.py:109-191", "pisi/op/build.py:51-67"]}
{"id": "C91", "title": "Every built file is in exactly one package", "statement": "When a specification has several packages, each built file that one of the listed paths covers is in the file list of exactly one package.", "quantifier": "all build trees and lists of packages with their paths", "why_tests_cant": "pairs of overlapping paths among any number of packages", "anchors": ["pisi/op/build.py:69-93", "pisi/op/build.py:593-639", "pisi/util/fs.py:142-148"]}
{"id": "C92", "title": "A file has the type given with the deepest path listed above it", "statement": "The file type and the permanent flag recorded for a file are those given in the specification with the deepest listed path that is the file or a directory above it.", "quantifier": "all build trees, specifications and files", "why_tests_cant": "string comparison instead of path comparison goes wrong only for some names", "anchors": ["pisi/op/build.py:51-67"]}
{"id": "C93", "title": "Built files in no package are reported", "statement": "The files reported as abandoned after a build are exactly the built files that are in no package.", "quantifier": "all build trees and specifications", "why_tests_cant": "string prefixes instead of path prefixes go wrong only for some names", "anchors": ["pisi/op/build.py:347-369"]}
{"id": "C94", "title": "The installed size of a package is the sum of the sizes of its files", "statement": "The installed size in the metadata of a built package equals the sum of the sizes recorded in its file list.", "quantifier": "all build trees and specifications", "why_tests_cant": "the two numbers come from different traversals of the tree", "anchors": ["pisi/op/build.py:574-584", "pisi/util/fs.py:58-80", "pisi/op/build.py:593-639"]}
{"id": "C95", "title": "The recorded hash of a link is that of its target name", "statement": "The hash recorded for a symbolic link is the hash of the name it points to, however the link came into the package.", "quantifier": "all build trees and specifications", "why_tests_cant": "two branches of the traversal treat links differently depending on what they point to", "anchors": ["pisi/util/fs.py:109-191"]}
{"id": "C96", "title": "The metadata of a built package say what the specification says", "statement": "The metadata read from a built package have the package's own summary, description, license, icon and component where the specification gives them, and else those of the source (the component of the directory if the source names none); the package types of both; everything else as specified. Making them fails only if there is no history or no component. (False of the code for builds in stages, --until, which do not look for the component of the directory.)", "quantifier": "all specifications, packages, components and settings", "why_tests_cant": "tags are merged twice (on reading and when the component is known), with all combinations of missing tags", "anchors": ["pisi/data/specfile.py:227-284", "pisi/data/metadata.py:54-105", "pisi/op/build.py:290-308", "pisi/op/build.py:561-591"]}
{"id": "C97", "title": "The name of a package file has the recorded version", "statement": "The version and release in the name of a built package file are those that the metadata in the file give when it is installed, which are those of the latest update.", "quantifier": "all specifications, packages and build numbers", "why_tests_cant": "two sources of the version that usually agree", "anchors": ["pisi/data/specfile.py:251-258", "pisi/data/metadata.py:54-56", "pisi/op/build.py:775-778"]}
{"id": "C98", "title": "A build goes on only with its dependencies satisfied", "statement": "Unless dependencies are ignored, the phases of a build are only reached if all build dependencies are satisfied by installed packages and all packages of system.devel are installed (unless the safety switch is bypassed); if they are, the build is not held up. (False of the code for builds in stages, --until, which check nothing.)", "quantifier": "all installed systems, repositories, build dependencies and options", "why_tests_cant": "all combinations of constraints, options and installed versions", "anchors": ["pisi/op/build.py:421-469"]}
{"id": "C99", "title": "Missing build dependencies are installed on request", "statement": "If every missing build dependency is offered by a repository and the user agrees, the missing packages are installed and the build goes on.", "quantifier": "all installed systems, repositories and build dependencies", "why_tests_cant": "a branch that needs a user and a repository", "anchors": ["pisi/op/build.py:450-469"]}
{"id": "C100", "title": "A package of static libraries is made on request", "statement": "With the option to make static packages, a package is made for the static libraries among the built files, if there are any; otherwise the build goes on without one.", "quantifier": "all build trees", "why_tests_cant": "the failing branch needs a built static library", "anchors": ["pisi/op/build.py:496-522", "pisi/op/build.py:524-549"]}
{"id": "C101", "title": "Only one process at a time may change the databases", "statement": "At no time do two processes have the database environment or a database open for writing; a second one that tries is refused, and the first one goes on undisturbed to its end.", "quantifier": "all numbers of processes, commands, versions, interleavings, kills at any point and programs started in between", "why_tests_cant": "mutual exclusion over all interleavings of processes that may die or fork anywhere, with lock files that are deleted and created again", "anchors": ["pisi/db/lockeddbshelve.py:70-75", "pisi/db/lockeddbshelve.py:160-177", "pisi/api.py:85-130", "pisi/util/fs.py:348-354"]}
{"id": "C102", "title": "Commands that have ended or been killed block nobody", "statement": "When no command is running, however earlier ones ended, a new command finds all locks free, opens all databases for writing and gets to its end.", "quantifier": "all histories of commands, interleavings, kills and started programs", "why_tests_cant": "every point at which a process may be killed counts, and locks are shared with programs started from it", "anchors": ["pisi/db/lockeddbshelve.py:70-75", "pisi/db/lockeddbshelve.py:160-177", "pisi/util/process.py:25-72"]}
{"id": "C103", "title": "A database is only opened by programs of its own version", "statement": "No database is ever opened by a PiSi whose database version differs from that of the PiSi that created it: such commands stop with an error, until rebuild-db has made new databases.", "quantifier": "all versions, databases, histories of commands including rebuild-db, interleavings and kills", "why_tests_cant": "needs two releases of PiSi and interruptions at chosen points of rebuild-db", "anchors": ["pisi/db/lockeddbshelve.py:40-68", "pisi/op/rebuilddb.py:147-162"]}
{"id": "C104", "title": "rebuild-db repairs what was interrupted", "statement": "When a command has been interrupted at any point, rebuild-db of a PiSi that is not older than the databases gets through, and leaves version files and databases of its own version.", "quantifier": "all histories of commands, interleavings and kills", "why_tests_cant": "every point of interruption counts", "anchors": ["pisi/db/lockeddbshelve.py:40-68", "pisi/op/rebuilddb.py:117-129", "pisi/op/rebuilddb.py:147-162"]}
{"id": "C105", "title": "Commands that only read disturb nobody and wait for nobody", "statement": "Whether or not some processes only read makes no difference to the version files, the databases, the locks and all other processes. They get to their work whatever locks others have, if the databases exist and have their version.", "quantifier": "all sets of reading processes and all histories of all processes", "why_tests_cant": "noninterference: compares two executions of arbitrary length", "anchors": ["pisi/db/lockeddbshelve.py:79-102", "pisi/db/lockeddbshelve.py:112-124", "pisi/api.py:85-130"]}
{"id": "C106", "title": "pisi clean deletes only unused locks of the database directory", "statement": "pisi clean deletes no file outside the database directory, and there only lock files.", "quantifier": "all file systems and current directories", "why_tests_cant": "a negative statement about every file on the system and every directory the command may be started in", "anchors": ["pisi/cli/clean.py:41-44", "pisi/util/fs.py:348-354"]}
{"id": "C107", "title": "rebuild-db reconstructs the databases", "statement": "After rebuild-db all packages with a directory under package are recorded as installed and all repositories with a directory under index are known again.", "quantifier": "all sets of package directories and repositories", "why_tests_cant": "the failure depends on a name missing in another module, the statement is about every set of installed packages", "anchors": ["pisi/op/rebuilddb.py:131-165", "pisi/api.py:153-158"]}
{"id": "C108", "title": "Of several directories of a package the newest is kept", "statement": "When rebuild-db gets through cleaning duplicate package directories, exactly one directory is left of every package, and no directory of that package had a newer version. It gets through if names and versions can be read.", "quantifier": "all sets of directory names and orders of the listing", "why_tests_cant": "any number of directories in any order; the deletion is by a name put together again from the parsed parts", "anchors": ["pisi/op/rebuilddb.py:98-115", "pisi/util/pkg.py:72-86", "pisi/version.py:136-200"]}
{"id": "C109", "title": "Only intact indices get into the database", "statement": "At every moment of update-repo, even when it is killed, the index of the repository in the database is the one from before or the one that the server sent, whose hash is the announced one.", "quantifier": "all files on the server, answers that change during the command, earlier files on disk, points of interruption", "why_tests_cant": "quantifies over everything a server may send and over every point of interruption", "anchors": ["pisi/op/repo.py:53-76", "pisi/file.py:93-140", "pisi/data/index.py:53-70"]}
{"id": "C110", "title": "'No updates available' is true", "statement": "When update-repo tells that there are no updates for a repository, the database has the index whose hash the server announces.", "quantifier": "all histories of update-repo with all answers of servers and interruptions", "why_tests_cant": "depends on how earlier commands failed, and on servers that change between two requests", "anchors": ["pisi/op/repo.py:53-76", "pisi/file.py:93-140"]}
{"id": "C111", "title": "Indices with invalid signatures do not get into the database", "statement": "An index that comes with an invalid signature never gets into the database, neither by update-repo, forced or not, nor by reading it again later.", "quantifier": "all histories of commands, keys, files and interruptions", "why_tests_cant": "a security property over all histories and forged files", "anchors": ["pisi/op/repo.py:53-97", "pisi/file.py:209-218"]}
{"id": "C112", "title": "A published index arrives", "statement": "When an index has been written by pisi index, the next update-repo from it or its compressed form succeeds and brings exactly this index into the database.", "quantifier": "all indices, file names, earlier files on the server, with or without signatures, histories of the client", "why_tests_cant": "end to end over two machines and all their histories", "anchors": ["pisi/op/index.py:31-47", "pisi/file.py:70-218", "pisi/op/repo.py:53-76"]}
{"id": "C113", "title": "Actions scripts stay inside the install directory", "statement": "Whatever calls of dodir, domove, rename, dosym, insinto, remove and removeDir an actions script makes, and whatever their arguments, nothing outside the install directory changes.", "quantifier": "all scripts, arguments, file systems, working directories, with or without ignore_action_errors, also for scripts that fail half-way", "why_tests_cant": "quantifies over all scripts and all file systems, symbolic links and paths upwards included", "anchors": ["pisi/actionsapi/pisitools.py:50-52,153-249", "pisi/actionsapi/shelltools.py:45-166"]}
{"id": "C114", "title": "insinto puts every matching file into the package", "statement": "After an insinto that reports no error, every file that matched the pattern is in the destination directory under its own name with its own content.", "quantifier": "all patterns, file names, contents, file systems and destinations", "why_tests_cant": "depends on all possible names of files, on other files around them and on the expansion of patterns", "anchors": ["pisi/actionsapi/pisitools.py:215-225", "pisi/actionsapi/shelltools.py:126-149"]}
{"id": "C115", "title": "domove moves to the destination", "statement": "After a domove that reports no error the file or directory, with everything below it, is at the destination, and nothing else has changed or been lost.", "quantifier": "all sources, destinations and file systems", "why_tests_cant": "depends on what is at and around both places", "anchors": ["pisi/actionsapi/pisitools.py:153-164", "pisi/actionsapi/shelltools.py:115-124"]}
{"id": "C116", "title": "remove and removeDir remove exactly what matches", "statement": "After remove, or a removeDir that reports no error, what matched the argument is gone with everything below it, and nothing else.", "quantifier": "all patterns and file systems", "why_tests_cant": "quantifies over all trees and patterns, and over what earlier removals in the same call have removed already", "anchors": ["pisi/actionsapi/pisitools.py:241-249", "pisi/actionsapi/shelltools.py:91-113"]}
{"id": "C117", "title": "dosed replaces the text in the file", "statement": "After dosed with a literal pattern every occurrence of it in the file is replaced, and nothing else in the file system has changed.", "quantifier": "all files, contents, patterns, replacements and file systems", "why_tests_cant": "quantifies over all texts, and over the other files around", "anchors": ["pisi/actionsapi/pisitools.py:181-196"]}
{"id": "C118", "title": "dodir makes the directory", "statement": "After a dodir that reports no error the directory is there with the directories on the way to it, and nothing else has changed; it reports no error unless something is in the way.", "quantifier": "all paths and file systems", "why_tests_cant": "quantifies over all trees that may be there before", "anchors": ["pisi/actionsapi/pisitools.py:50-52", "pisi/actionsapi/shelltools.py:45-51"]}
{"id": "C119", "title": "rename renames", "statement": "After a rename that reports no error the file or directory is in the same directory under its new name with everything below it, and nothing else has changed or been lost; if it is not there, an error is reported and nothing changes.", "quantifier": "all names and file systems", "why_tests_cant": "quantifies over all trees, and over what has the new name already", "anchors": ["pisi/actionsapi/pisitools.py:166-179"]}
{"id": "C120", "title": "dosym makes the link", "statement": "After a dosym that reports no error the link with exactly this text is at its place and nothing has changed but that directories on the way have been made; it succeeds if the place is free; if anything is there, an error is reported and nothing changes.", "quantifier": "all link texts, places and file systems without links", "why_tests_cant": "quantifies over all trees", "anchors": ["pisi/actionsapi/pisitools.py:204-213"]}
{"id": "C121", "title": "dodoc installs every matching file", "statement": "After a call of dodoc or doinfo (readable_insinto) that reports no error every file that matched is in the directory with its content, and nothing else has changed.", "quantifier": "all patterns, file names, contents and file systems", "why_tests_cant": "names pass through a command line that is put together, squeezed and split by the shell; all names are possible", "anchors": ["pisi/actionsapi/pisitoolsfunctions.py:68-82", "pisi/actionsapi/shelltools.py:223-225", "pisi/actionsapi/pisitools.py:54-59,92-95"]}
{"id": "C122", "title": "dobin installs every matching file", "statement": "After a call of dobin, dosbin, doexe or doexes (executable_insinto) that reports no error every file that matched is in the directory with its content, and nothing else has changed.", "quantifier": "all patterns, file names, contents and file systems", "why_tests_cant": "names pass through the shell unquoted and exit codes are not looked at", "anchors": ["pisi/actionsapi/pisitoolsfunctions.py:45-66", "pisi/util/process.py:25-34", "pisi/actionsapi/pisitools.py:41-48,61-69,198-202"]}
{"id": "C123", "title": "dolib installs the library", "statement": "dolib, dolib_so and dolib_a of a library that exists succeed and put it into the directory, a link as a link.", "quantifier": "all libraries, directories and file systems", "why_tests_cant": "quantifies over all trees and paths", "anchors": ["pisi/actionsapi/pisitoolsfunctions.py:84-96", "pisi/actionsapi/pisitools.py:97-123"]}
{"id": "C124", "title": "The command line means what it says", "statement": "Whatever options and arguments are written in any of their spellings, and in any order, pisi runs the command named by the first word that is neither an option nor the value of one, with exactly these options set and the remaining words as its arguments; a line that is not of this form is refused.", "quantifier": "all sequences of options, values and words, all commands and option tables", "why_tests_cant": "quantifies over all command lines and all tables of options, including values that look like commands and commands that look like values", "anchors": ["pisi/cli/pisicli.py:33-112", "pisi/cli/command.py:54-98"]}
{"id": "C125", "title": "Names of commands", "statement": "Registering commands succeeds exactly if no two have a name or short name in common; afterwards each command is found under its name and its short name, and nothing under any other word.", "quantifier": "all sequences of command classes", "why_tests_cant": "quantifies over all sets of commands and all words", "anchors": ["pisi/cli/command.py:54-62,176-191", "pisi/cli/commands.py:1-21"]}
{"id": "C126", "title": "Every command can be used", "statement": "For each command that is registered, its name followed by words as arguments runs that command with these arguments.", "quantifier": "all registered commands and all arguments", "why_tests_cant": "quantifies over all arguments; the tests never construct the option parsers of the commands", "anchors": ["pisi/cli/command.py:64-98", "pisi/cli/search.py:30-60", "pisi/cli/listcmd.py:200-240"]}
{"id": "C127", "title": "The general help lists every command", "statement": "The usage text of pisi contains a line with the name of every command that exists.", "quantifier": "all programs that load commands, in any order", "why_tests_cant": "depends on when texts are computed while modules are loaded, for all sets of commands", "anchors": ["pisi/cli/command.py:20-50,193-210", "pisi/cli/help.py:20-58"]}
{"id": "C128", "title": "The graph of package relations", "statement": "For packages all of whose direct and indirect dependencies are known, the graph has exactly the packages that can be reached as vertices and exactly the dependencies among them as edges; with ignore_installed, those that the installed system does not satisfy.", "quantifier": "all databases, sets of packages, installed systems and orders of iteration", "why_tests_cant": "quantifies over all dependency graphs, cycles included", "anchors": ["pisi/op/graph.py:26-58", "pisi/data/pgraph.py:25-80"]}
{"id": "C129", "title": "The graph that is written is the graph", "statement": "The file for graphviz describes the graph up to the names of the nodes: valid names, different ones for different packages, and the same edges and labels.", "quantifier": "all graphs of packages", "why_tests_cant": "quantifies over all names of packages and all graphs", "anchors": ["pisi/data/graph.py:135-156"]}
{"id": "C130", "title": "emerge builds and installs", "statement": "If every build and installation succeeds, emerge of some sources builds each of them and installs what it has built; a dry run does nothing; it stops at the first failure.", "quantifier": "all sets of sources, orders of iteration and outcomes of builds", "why_tests_cant": "quantifies over all sets of sources and all ways in which steps may fail", "anchors": ["pisi/op/emerge.py:40-160"]}
{"id": "C131", "title": "An index lists exactly what is in the directory", "statement": "`pisi index dir` fails only if one of the packages, component.xml, distribution.xml or (unless skipped) pspec.xml files in the directory cannot be read; otherwise the index lists exactly the packages whose metadata has no errors, the components and the specifications of the directory, each with its path below the directory as URI.", "quantifier": "all directory trees, all orders in which the operating system lists them, all contents of files, all options without --absolute-uris", "why_tests_cant": "The tests index one small tree; that nothing is left out, nothing added and every URI right is a statement about all trees and all orders of os.walk.", "anchors": ["pisi/data/index.py:85-169", "pisi/op/index.py:30-50", "pisi/util/path.py:25-110", "pisi/uri.py:40-100", "pisi/data/package.py:36-93"]}
{"id": "C132", "title": "A package is found where the index says", "statement": "After a repository has been updated from its index, a package offered by it that is installed by name is taken from the file below the directory of the index whose metadata is the one in the database; a specification built by name likewise.", "quantifier": "all directory trees, all histories of the databases, all repositories on the local file system, all package names", "why_tests_cant": "It combines indexing, the update of the databases, the choice of the repository and the resolution of URIs; the unit tests do not install by name at all.", "anchors": ["pisi/op/install.py:53-75", "pisi/op/build.py:99-121", "pisi/data/package.py:36-93", "pisi/uri.py:40-100", "pisi/data/index.py:102-169", "pisi/db/package.py:53-75"]}
{"id": "C133", "title": "The newest package of a directory is offered", "statement": "If a directory that is indexed contains several packages of the same name, the database offers none after the update than which another one is newer.", "quantifier": "all directory trees, all orders in which the operating system lists them, all versions, all histories of the databases", "why_tests_cant": "The order of os.walk is up to the operating system; a test sees one order.", "anchors": ["pisi/data/index.py:85-134", "pisi/db/package.py:92-116", "pisi/version.py:60-160"]}
{"id": "C134", "title": "The source of a package", "statement": "In every reachable state, a package that is listed by the specification of a source has a source by pkgtosrc, and the specification in the database of the source that pkgtosrc gives lists the package.", "quantifier": "all histories of adding, removing and updating repositories and of installed packages, all indices", "why_tests_cant": "It is an invariant of two databases over all histories; emerge plans its builds by it.", "anchors": ["pisi/db/source.py:55-98", "pisi/op/emerge.py:105-145", "pisi/data/index.py:102-111"]}
{"id": "C135", "title": "Cleaning a static library changes its time stamps only", "statement": "Before a static library is hashed and packed, the time stamps of its members are set to zero; nothing else in the file is changed, so libraries that differ in time stamps only get the same hash.", "quantifier": "all static libraries in the format of ar(5), all contents of their members", "why_tests_cant": "The contents of members are arbitrary bytes; the unit tests clean no library at all, and a few examples would not contain the bytes that are mistaken for a header.", "anchors": ["pisi/util/fs.py:90-104", "pisi/util/fs.py:117-132"]}
{"id": "C136", "title": "Files named in NoStrip are not stripped", "statement": "Exactly the files of the install directory are stripped that are neither named in NoStrip of the actions script nor below a directory named there; the debug information of a file goes to the same place below the debug directory.", "quantifier": "all trees of files, all orders of os.walk, all lists NoStrip", "why_tests_cant": "The comparison is on strings made from paths; whether it works for all entries and all trees is a statement about string prefixes that examples do not settle.", "anchors": ["pisi/util/fs.py:266-296", "pisi/op/build.py:551-559"]}
{"id": "C137", "title": "Exactly the object files are stripped", "statement": "strip is called for a file if and only if `file` describes it as a static library, a program or a shared library, and with the options for that kind; other files are left alone whatever they are called.", "quantifier": "all paths, all descriptions given by file", "why_tests_cant": "The output of `file` contains the name of the file, which is arbitrary.", "anchors": ["pisi/util/fs.py:298-341"]}
{"id": "C138", "title": "list-available shows what is in the repository", "statement": "In every reachable state list-available with a repository shows each package of it once (with --uninstalled, each that is not installed), and what is shown is the package of that repository; without arguments every repository is listed in order.", "quantifier": "all histories of the databases, all options, all repositories", "why_tests_cant": "The states come from arbitrary histories of several repositories; no test lists packages.", "anchors": ["pisi/cli/listcmd.py:91-125", "pisi/db/package.py:63-67", "pisi/db/itembyrepo.py:136-166"]}
{"id": "C139", "title": "list-sources and list-components are complete", "statement": "In every reachable state list-sources and list-components succeed and show exactly the sources and components of all repositories, each once, as described by the first repository that has it.", "quantifier": "all histories of the databases", "why_tests_cant": "It depends on an invariant over all histories: nothing is kept of repositories that are not listed.", "anchors": ["pisi/cli/listcmd.py:147-200", "pisi/db/source.py:50-68", "pisi/data/component.py:105-142", "pisi/db/itembyrepo.py:78-97"]}
{"id": "C140", "title": "Installing a package puts in place what was built", "statement": "After the install archive of a package (format 1.1) has been unpacked, every path of it holds what the build made: the same content and mode of files, the same target of links, also for files with several names; nothing else is changed except that missing directories above are made. Installing it again over changed files gives the same.", "quantifier": "all trees of built files, all hard links among them, all states of the root directory", "why_tests_cant": "It depends on the whole file system before installing, on names from which characters are stripped, and on the order of members of an archive; the unit tests unpack one fixed archive.", "anchors": ["pisi/op/build.py:823-837", "pisi/archive.py:86-130", "pisi/data/package.py:119-131"]}
{"id": "C141", "title": "A cached source archive can be unpacked and stays cached", "statement": "If an archive in the cache has the expected hash, unpacking it gives its content, and the archive is still in the cache afterwards, so that building again does not fetch again.", "quantifier": "all file names, all types of archives, all contents of the cache", "why_tests_cant": "The names of files are arbitrary; the fault depends on the last character before the suffix.", "anchors": ["pisi/sourcearchive.py:52-77", "pisi/archive.py:86-104", "pisi/archive.py:312-319"]}
{"id": "C142", "title": "Packages of the old format install what was built", "statement": "After a package of the format 1.0 has been unpacked without error, every file and link of it is in place, with the content, target and permissions that were stored; this holds for debug packages as well.", "quantifier": "all trees of built files, all states of the root directory, ordinary and debug packages", "why_tests_cant": "Over all trees and states; the tests only unpack zip files made by hand.", "anchors": ["pisi/op/build.py:817-822", "pisi/archive.py:183-208", "pisi/archive.py:213-273"]}
{"id": "C143", "title": "Builds do not depend on what was built before", "statement": "When several packages are built in one run of pisi (pisi build a b, emerge), what the actions script of a package reads from the environment and the environment of the programs it runs are the same as if the package were built alone: nothing that an earlier actions script exported or unset is left.", "quantifier": "all configurations, environments, histories of built packages and actions scripts", "why_tests_cant": "It is about every history of builds and about two environments, that of the interpreter and that of the process; the tests never build two packages in one process.", "anchors": ["pisi/actionsapi/variables.py:23-38", "pisi/actionsapi/variables.py:107-113", "pisi/op/build.py:210-239", "pisi/op/build.py:372-391", "pisi/op/build.py:861-866"]}
{"id": "C144", "title": "The records agree with the system after failures", "statement": "After every history of installing and removing packages, in which any operation may fail at any point, a package that is not recorded as installed has no files and no stored file list left, and for a recorded package exactly the file list of this version is stored and exactly its files are on the disk.", "quantifier": "all histories of operations and all points of failure", "why_tests_cant": "The number of histories and points of failure is unbounded; the unit tests do not make scripts, storing or the databases fail.", "anchors": ["pisi/op/install.py:88-118", "pisi/op/install.py:225-350", "pisi/op/remove.py:46-83", "pisi/op/remove.py:132-148"]}
{"id": "C145", "title": "An operation that failed can be repeated", "statement": "If an installation, upgrade or removal failed for a reason that has gone away, doing it again succeeds and leaves everything as if it had succeeded at once.", "quantifier": "all consistent states, operations and points of failure", "why_tests_cant": "Over all states and points of failure; a failed operation is never repeated in the tests.", "anchors": ["pisi/op/install.py:88-118", "pisi/op/install.py:225-330", "pisi/op/remove.py:46-83", "pisi/db/install.py:85-94"]}
{"id": "C146", "title": "The answers of COMAR are heeded", "statement": "Configuring an installed package sends exactly the registration of its scripts in order, then the call of the handlers, then the call of its own script if it has one; preparing a removal sends the call of its script, of the handlers and the removal of its scripts. Each request is sent only after the one before was answered well, the whole answer to each request is read before the next is sent, also if several scripts answer, and the operation fails if and only if some answer reports a failure, an error or that access was denied.", "quantifier": "all servers that answer every request, all packages and lists of scripts", "why_tests_cant": "The server and the order and number of its replies are arbitrary; there are no tests of comariface.", "anchors": ["pisi/comariface.py:57-134"]}
{"id": "C147", "title": "Given credentials reach the server", "statement": "With --username (and --password, or a password typed in) every HTTP or HTTPS request carries exactly one Authorization header from which the server reads exactly this name and password; without --username none is sent.", "quantifier": "all names and passwords, as byte strings, and all requests", "why_tests_cant": "Over all byte strings of all lengths, and two requests made at different times; there are no tests with a server that asks for a password.", "anchors": ["pisi/cli/command.py:117-138", "pisi/fetcher.py:135-136", "pisi/fetcher.py:241-269", "pisi/fetcher.py:296-316"]}
{"id": "C148", "title": "search-file finds the package of a file", "statement": "For every file recorded as belonging to an installed package, pisi search-file with its path shows this package with this file and nothing else, and whatever it shows is recorded.", "quantifier": "all file systems with links, file databases and paths", "why_tests_cant": "Over all file systems and databases; there is no test of search-file.", "anchors": ["pisi/cli/search.py:98-136", "pisi/db/files.py:39-68"]}
{"id": "C149", "title": "Names of files reach the programs unchanged", "statement": "Where pisi runs a program on a file (strip, objcopy, file, install, patch, sed, lzma, xdelta, gpg), the program is given exactly the name of this file as one argument and no other program is run, whatever the name is.", "quantifier": "all names of files", "why_tests_cant": "Names come from the sources of packages and range over all strings; a test tries a few harmless names.", "anchors": ["pisi/util/fs.py:242-266", "pisi/util/fs.py:282-283", "pisi/util/fs.py:298-320", "pisi/file.py:203-216", "pisi/archive.py:96", "pisi/util/pkg.py:88-91", "pisi/actionsapi/pisitoolsfunctions.py:62-96", "pisi/util/process.py:25-36"]}
{"id": "C150", "title": "Building from a server uses the files beside the specification", "statement": "When a package is built from the address of its pspec.xml, the actions script, every patch, every COMAR script and every additional file that the build reads has been fetched from the same relative name beside the specification on the server.", "quantifier": "all specifications and addresses", "why_tests_cant": "Over all names, with directories in them, and all addresses; the tests have no network.", "anchors": ["pisi/op/build.py:241-288", "pisi/op/build.py:375", "pisi/op/build.py:482-486", "pisi/op/build.py:745-760", "pisi/op/build.py:800-803", "pisi/file.py:103"]}
{"id": "C151", "title": "Additional files are put at their targets", "statement": "Every additional file of a package is put at its target below the install directory, and files with different targets do not overwrite each other.", "quantifier": "all targets and install directories", "why_tests_cant": "Over all targets; the tests contain one additional file.", "anchors": ["pisi/op/build.py:745-760"]}
{"id": "C152", "title": "Pipes in actions scripts give what their names say", "statement": "In an actions script, cat(f) | grep(e) gives exactly the lines of the file in which the expression is found, in order, | sort and | uniq and | join and | asdict and | enum give what the programs of these names would, and | printto prints the lines as they are in the file.", "quantifier": "all files and expressions", "why_tests_cant": "Over all contents and expressions; there is no test of the pipes.", "anchors": ["pisi/actionsapi/coreutils.py:26-83"]}
{"id": "C153", "title": "Installing and removing a package leaves no trace", "statement": "After a package has been installed for the first time and removed again, the file system is exactly as it was before, and neither operation fails.", "quantifier": "all packages and all file systems", "why_tests_cant": "Over all sets of files, directories and links and all file systems they may be put into; a test installs a few packages into an empty directory.", "anchors": ["pisi/op/install.py:247-309", "pisi/op/remove.py:70-71", "pisi/op/remove.py:93-130", "pisi/archive.py:244-282"]}
{"id": "C154", "title": "pisi upgrade upgrades what was asked for, and only once", "statement": "If pisi upgrade is not a dry run, its question about extra packages is not declined and it does not fail, then each requested package that could be upgraded is installed afterwards exactly as the repositories describe it and none of the requested packages can be upgraded any more; no package becomes upgradable. After upgrading everything installed, nothing can be upgraded and running pisi upgrade again changes nothing. Dry runs and declined upgrades change nothing.", "quantifier": "all databases, requested sets, base components, option values and set iteration orders", "why_tests_cant": "Tests upgrade a few packages of one repository; that nothing is left over for every dependency graph, every version string and every iteration order needs a proof.", "anchors": ["pisi/op/upgrade.py:80-169", "pisi/op/upgrade.py:42-75", "pisi/op/upgrade.py:171-240"]}
{"id": "C155", "title": "An upgrade that was planned runs to the end", "statement": "In a system where all dependencies of installed packages are satisfied, when plan_upgrade returns an order, installing the packages in this order passes every dependency check, so that the upgrade does not stop half way.", "quantifier": "all databases, requested sets, set iteration orders, with and without eager", "why_tests_cant": "The failure needs a package dragged in by reverse dependencies with a further new dependency; tests have no such repository, and success for all graphs needs an induction over the order.", "anchors": ["pisi/op/upgrade.py:171-240", "pisi/op/upgrade.py:154-166", "pisi/op/install.py:135-140", "pisi/data/specfile.py:200-203"]}
{"id": "C156", "title": "An upgrade leaves the dependencies of installed packages satisfied", "statement": "If every dependency of every installed package is satisfied before an upgrade that runs to the end, then so it is afterwards: for the packages upgraded or added and for those that stay as they are.", "quantifier": "all databases, requested sets, set iteration orders, with and without eager", "why_tests_cant": "It relates the installed copies, the repositories and the plan for every graph; the planner consults the repository's version of a package that stays, which equals the installed one in any simple test.", "anchors": ["pisi/op/upgrade.py:171-240", "pisi/op/upgrade.py:154-166", "pisi/data/dependency.py:58-106"]}
{"id": "C157", "title": "A copied directory is a copy", "statement": "After shelltools.copytree(source, destination, sym) without an error the tree is at the destination, or under its own name in the directory that is there: the same directories and files with the same contents at the same places, links as links or, if sym is false, as what they lead to; nothing else in the file system is different. Putting a directory into the package with insinto does the same below the install directory. What cannot be copied is reported and does not keep the rest from being copied.", "quantifier": "all file systems that are trees, all names and working directories, all depths, with and without sym", "why_tests_cant": "Tests copy one small directory; that the result is equal at every depth and nothing else changes needs an induction over trees, and the lost argument only shows with an existing destination and a link.", "anchors": ["pisi/actionsapi/shelltools.py:151-166", "pisi/actionsapi/shelltools.py:126-149", "pisi/actionsapi/pisitools.py:215-224"]}
{"id": "C158", "title": "Manual pages are put into their sections", "statement": "After pisitools.doman(pattern) without an error every file that matches and is called x.n is in the package as /usr/share/man/mann/x.n with its contents; files that were in the package before and have other names are as before, and nothing outside of the directory of the manual pages is different. A name without a dot is reported as an error.", "quantifier": "all file systems that are trees without links, all patterns and file names", "why_tests_cant": "The pages are installed by a shell command whose failure nobody looks at; tests have one page with a simple name.", "anchors": ["pisi/actionsapi/pisitools.py:125-142"]}
{"id": "C159", "title": "HTML files are put into the documentation of the package", "statement": "After pisitools.dohtml(pattern) every file with an allowed extension that matches, or that is anywhere below a matching directory other than CVS, is in /usr/share/doc/PACKAGE/html of the package under its name and with its contents, and nothing else is put there.", "quantifier": "all file systems that are trees without links, all patterns, directories of all depths", "why_tests_cant": "Which files os.walk comes to and which overwrite one another depends on the tree; a test has one tree.", "anchors": ["pisi/actionsapi/pisitools.py:71-91"]}
{"id": "C160", "title": "Files are put into the package under a new name", "statement": "After pisitools.newdoc(source, destination) without an error the contents of the source are in /usr/share/doc/PACKAGE/destination of the package; after pisitools.newman(source, x.n) they are in /usr/share/man/mann/x.n.", "quantifier": "all file systems that are trees without links, all working directories, sources and destinations", "why_tests_cant": "The two halves of newdoc look in different directories, which is only visible from a working directory other than the source directory; tests run in the source directory.", "anchors": ["pisi/actionsapi/pisitools.py:226-239", "pisi/actionsapi/pisitoolsfunctions.py:68-85"]}
{"id": "C161", "title": "A failing program ends the build", "statement": "When a program that an actions script runs through the helpers of autotools, kde, perlmodules, pythonmodules, scons or libtools ends with a status other than zero, no further program is run and the script ends with an error of the actions API; a script that ends without an error has run only programs that succeeded.", "quantifier": "all actions scripts made of calls of the helpers, all programs, exit statuses (including signals) and states of the computer", "why_tests_cant": "Each of some twenty helpers has its own way of looking at the status, and a test cannot make every program fail at every place.", "anchors": ["pisi/actionsapi/autotools.py:58-165", "pisi/actionsapi/kde.py:50-83", "pisi/actionsapi/perlmodules.py:50-87", "pisi/actionsapi/pythonmodules.py:48-68", "pisi/actionsapi/scons.py:39-45", "pisi/actionsapi/libtools.py:36-55", "pisi/util/process.py:46-72"]}
{"id": "C162", "title": "Build systems are told the install directory of the package", "statement": "When several packages are built in one run of pisi, the command lines that autotools.install, kde.install, perlmodules.configure, pythonmodules.install and scons.install run contain, as one word each, the options that direct the files below the install directory of the package that is being built.", "quantifier": "all lists of packages built before, install directories, parameters given by the script and computers", "why_tests_cant": "It depends on what was built before in the same process and on the name of the directory; tests build one package in a directory with a simple name.", "anchors": ["pisi/actionsapi/autotools.py:105-130", "pisi/actionsapi/kde.py:76-83", "pisi/actionsapi/perlmodules.py:50-58", "pisi/actionsapi/pythonmodules.py:53-56", "pisi/actionsapi/scons.py:43-45", "pisi/op/build.py:140", "pisi/op/build.py:372-391"]}
{"id": "C163", "title": "Python modules are installed with their documentation", "statement": "pythonmodules.install succeeds exactly when setup.py install does, and afterwards the usual documentation files of the sources are in the package.", "quantifier": "all computers, files in the sources and parameters", "why_tests_cant": "Whether it works depends on the names of all files in the directory of the sources.", "anchors": ["pisi/actionsapi/pythonmodules.py:53-63"]}
{"id": "C164", "title": "Commands in actions scripts are run as they are written", "statement": "The shell makes of the line that shelltools.system runs the same words and operators as it would make of the line given in the actions script.", "quantifier": "all command lines", "why_tests_cant": "The line is split and joined again; a test has a few lines without quotes.", "anchors": ["pisi/actionsapi/shelltools.py:223-225"]}
{"id": "C165", "title": "delete-cache empties the caches and nothing else", "statement": "delete_cache succeeds and afterwards nothing is left of the packages, the archives and the temporary files in the directories the configuration names; every other file is as it was.", "quantifier": "all configurations, current directories and file systems", "why_tests_cant": "It removes whole trees; what must not be removed is everything else on the computer, and a test has one layout of it.", "anchors": ["pisi/api.py:138-141", "pisi/util/fs.py:38-49", "pisi/config.py:82-112"]}
{"id": "C166", "title": "The size shown before an installation is the size of the packages", "statement": "The line 'Total size of packages' shows the sum of the sizes of the packages that will be fetched, within half of the last digit shown, in the unit shown; of two operations the larger one is never shown as the smaller.", "quantifier": "all lists of packages and sizes", "why_tests_cant": "It is a property of all numbers, at the borders of every unit.", "anchors": ["pisi/util/fun.py:81-88", "pisi/op/install.py:530-532", "pisi/op/upgrade.py:146-148"]}
{"id": "C167", "title": "The patches of a source are applied as they are, in their order", "statement": "When apply_patches comes to its end, every patch of the specification has been applied to the sources, uncompressed, with its level and its target, in the order of the specification; when it ends with an error, the patches before some patch have been applied and that patch cannot be read or did not fit.", "quantifier": "all specifications, files and states of the sources, all behaviours of the program patch", "why_tests_cant": "File names go through a shell and through temporary files; tests have a patch or two with simple names.", "anchors": ["pisi/op/build.py:471-496", "pisi/util/fs.py:222-265", "pisi/util/process.py:25-35", "pisi/data/specfile.py:66-71"]}
{"id": "C168", "title": "A translation in a package is made from the text that was given", "statement": "If domo(source, locale, destination) ends without an error, the file destination in the directory of the locale in the install directory is what msgfmt makes of the source, and nothing but that file, the file messages.mo and the directories on the way has changed.", "quantifier": "all sources, locales, destinations and file systems, all behaviours of msgfmt", "why_tests_cant": "Whether msgfmt accepts a text depends on the text; a test has a correct translation.", "anchors": ["pisi/actionsapi/pisitools.py:144-151", "pisi/actionsapi/shelltools.py:91-115", "pisi/actionsapi/shelltools.py:223-225"]}
{"id": "C169", "title": "gnuconfig_update replaces every outdated config.sub and config.guess and nothing else", "statement": "After gnuconfig_update every config.sub and every config.guess below the current directory, be it a file or a symbolic link, is a copy of the newest one; no other file is changed.", "quantifier": "all source trees of any depth", "why_tests_cant": "Source trees of any shape; a walk that changes the tree it walks over.", "anchors": ["pisi/actionsapi/libtools.py:42-51", "pisi/actionsapi/shelltools.py:91-151"]}
{"id": "C170", "title": "Lines that are echoed into a file stay there, in their order", "statement": "echo(file, text) succeeds exactly if the path leads to a file or to a place where a file can be made; after any number of calls the file has what it had before, followed by the texts in their order, every one with an end of line; no other file is changed.", "quantifier": "all numbers of calls, all texts and paths, also over symbolic links", "why_tests_cant": "Any number of calls, on any file system.", "anchors": ["pisi/actionsapi/shelltools.py:53-59"]}
{"id": "C171", "title": "touch makes a file exist and leaves every text as it is", "statement": "When touch has succeeded there is something at the path that was given, and every file has the text that it had.", "quantifier": "all paths and file systems", "why_tests_cant": "Names can have characters with a meaning for glob.", "anchors": ["pisi/actionsapi/shelltools.py:168-179"]}
{"id": "C172", "title": "gen_usr_ldscript makes a linker script and damages no library", "statement": "After gen_usr_ldscript(library) the file of that name in /usr/lib of the install directory is a linker script that names the library in /lib; no other file has changed.", "quantifier": "all names of libraries and file systems", "why_tests_cant": "What is at the place before decides where the text goes to.", "anchors": ["pisi/actionsapi/libtools.py:57-75"]}
{"id": "C173", "title": "The helpers for build systems run the documented command lines", "statement": "configure, make, install and the other helpers of autotools, kde, perlmodules, pythonmodules, scons and libtools run one program at most; for texts without a meaning for the shell it gets exactly the documented options, then the parameters given, each word of them an argument; nothing is run if the file the program needs is missing. After an installation that succeeded exactly the index of info pages, or the perllocal.pod files, are taken out of the install directory.", "quantifier": "all calls, environments, states of the computer and behaviours of the programs", "why_tests_cant": "Environments, parameters and the behaviour of the build system of a package are not known.", "anchors": ["pisi/actionsapi/autotools.py:58-165", "pisi/actionsapi/kde.py:50-83", "pisi/actionsapi/perlmodules.py:50-87", "pisi/actionsapi/pythonmodules.py:48-68", "pisi/actionsapi/scons.py:39-45", "pisi/actionsapi/libtools.py:36-41"]}
{"id": "C174", "title": "A dry run changes nothing", "statement": "install, remove and upgrade with --dry-run ask their questions and change neither a package nor a repository nor a database.", "quantifier": "all options, arguments, states, plans, answers and behaviours of the operations on single packages", "why_tests_cant": "Combinations of options, states and answers; the places where the option is looked at are spread over the code.", "anchors": ["pisi/op/install.py:388-550", "pisi/op/upgrade.py:80-166", "pisi/op/remove.py:154-208", "pisi/op/conflict.py:64-89", "pisi/cli/upgrade.py:67-86"]}
{"id": "C175", "title": "After a no nothing has been done", "statement": "If one of the questions of install, remove or upgrade is answered with no, no package is installed, upgraded or removed by that command.", "quantifier": "all options, arguments, states, plans and answers", "why_tests_cant": "Which questions are asked, and in which order, depends on the state and on earlier answers.", "anchors": ["pisi/op/install.py:437-545", "pisi/op/upgrade.py:150-158", "pisi/op/remove.py:192-200", "pisi/op/conflict.py:64-89", "pisi/cli/__init__.py:112-125"]}
{"id": "C176", "title": "Packages that were not named are treated only with consent", "statement": "install, remove and upgrade do nothing to a package that was not named (by itself or by its component) unless a question that shows it has been answered with yes before.", "quantifier": "all options, arguments, states, answers, and all plans without repetitions that have what is asked for", "why_tests_cant": "Which packages a plan adds depends on the whole state.", "anchors": ["pisi/op/install.py:495-550", "pisi/op/upgrade.py:80-166", "pisi/op/remove.py:154-208", "pisi/op/upgrade.py:54-74"]}
{"id": "C177", "title": "Plans do not depend on the order of the names", "statement": "The set of packages that a plan for install, remove, upgrade or package files has, and whether a plan exists at all, depends neither on the order in which the packages were named nor on the order in which Python goes through its sets; two complete runs of such plans leave the same packages installed.", "quantifier": "all package databases and indices, all permutations of the names, all orders of iteration over sets and dictionaries", "why_tests_cant": "The order of sets depends on the interpreter and on hashes; tests see one order.", "anchors": ["pisi/op/install.py:452-483", "pisi/op/install.py:551-582", "pisi/op/upgrade.py:171-240", "pisi/op/remove.py:210-240"]}
{"id": "C178", "title": "update-repo updates every repository that can be reached", "statement": "After update-repo the packages and sources of every repository (or every named one) whose index can be had and is acceptable are those of its index, whatever happened to the others; nothing else changes.", "quantifier": "all histories of the databases, all answers of the servers, all arguments, with and without --force", "why_tests_cant": "Which repository fails, and in which place of the list it stands, varies; tests have one repository.", "anchors": ["pisi/cli/repo.py:116-127", "pisi/op/repo.py:53-78"]}
{"id": "C179", "title": "remove-repo removes exactly the named repositories", "statement": "remove-repo succeeds for any names; afterwards the named repositories are not in the list and have no packages, sources or components; all others keep their places, addresses and contents; unknown names do no harm.", "quantifier": "all histories of the databases, all lists of names", "why_tests_cant": "Several databases must agree after each removal, for every mixture of known and unknown names.", "anchors": ["pisi/cli/repo.py:85-92", "pisi/op/repo.py:41-48", "pisi/db/repo.py:99-109"]}
{"id": "C180", "title": "remove-repo deletes only the files of the named repositories", "statement": "The files deleted by remove-repo are exactly those in the directories of the repositories that it removes.", "quantifier": "all names of repositories, all file systems (without links) and histories", "why_tests_cant": "Depends on the names that users give to repositories.", "anchors": ["pisi/op/repo.py:41-48", "pisi/util/fs.py:45-49", "pisi/op/repo.py:33-39"]}
{"id": "C181", "title": "add-repo adds one repository where it is asked for", "statement": "add-repo with a new name and a position in the list puts the repository there, leaves the others alone, and after a yes updates it if its index can be had; otherwise it has no packages. A known name or a position outside the list changes nothing. list-repo shows all repositories in their order with their addresses.", "quantifier": "all histories of the databases, names, positions and answers", "why_tests_cant": "The position and the outcome of the update vary independently of what is in the databases.", "anchors": ["pisi/cli/repo.py:52-67", "pisi/cli/repo.py:143-149", "pisi/op/repo.py:33-39", "pisi/db/repo.py:75-91"]}
{"id": "C182", "title": "Every specification that is valid for pisi-spec.dtd is read", "statement": "Every document that is valid for pisi-spec.dtd is read by SpecFile.read without an error.", "quantifier": "all documents (trees of elements, attributes and texts), all languages of the user", "why_tests_cant": "The DTD and the declarations of the classes are two independent descriptions of the same format; a test compares them on a few documents.", "anchors": ["pisi-spec.dtd", "pisi/data/specfile.py:43-284", "pisi/exml/autoxml.py:424-443"]}
{"id": "C183", "title": "What a valid specification says is in the record", "statement": "For every document that is valid for pisi-spec.dtd and read, the values of all declared attributes and elements are in the record; in particular the types of updates.", "quantifier": "all documents, all languages of the user", "why_tests_cant": "A member that reads another name than the one in the DTD is silently empty; tests look at the members they know.", "anchors": ["pisi-spec.dtd", "pisi/data/specfile.py:89-105", "pisi/exml/autoxml.py:464-486"]}
{"id": "C184", "title": "Components, distributions and lists of files are read exactly if complete", "statement": "A component, a distribution or a files.xml is read without an error exactly if what is mandatory is there and not blank, texts have a language the user can read, words are ASCII, numbers are numbers and elements for texts do not begin with elements; everything else in the file makes no difference to that. A component or a distribution is written only if its texts are there.", "quantifier": "all documents, all languages of the user", "why_tests_cant": "An equivalence over all trees; tests can only show documents that are read or refused.", "anchors": ["pisi/data/component.py:30-73", "pisi/data/files.py:19-42", "pisi/exml/autoxml.py:424-443"]}
{"id": "C185", "title": "Metadata is read exactly if complete", "statement": "A metadata.xml is read without an error exactly if source, packager, name, texts in a readable language, component, distribution, architecture, installed size and at least one update are there, and optional values are well formed.", "quantifier": "all documents, all languages of the user", "why_tests_cant": "An equivalence over all trees; tests can only show documents that are read or refused.", "anchors": ["pisi/data/metadata.py:29-73", "pisi/data/specfile.py:166-182", "pisi/exml/autoxml.py:424-443"]}
{"id": "C186", "title": "The commands of the README exist and run", "statement": "Every command of the list in the README can be called under its long and its short name and runs with the words that follow; there are no other commands; the options of install are exactly those listed, in that order.", "quantifier": "all words, all commands of the list, all command lines of plain words", "why_tests_cant": "The list is prose; a test calls a few commands by name and does not compare the table with the text.", "anchors": ["README.md:43-77", "README.md:96-119", "pisi/cli/command.py:20-68", "pisi/cli/pisicli.py:80-143"]}
{"id": "C187", "title": "Options work as the manual says, for every command", "statement": "Every command line written with the options that the manual lists for a command, in any order, short or long, before or after the words, runs that command with exactly the options set and the words left.", "quantifier": "all commands, all command lines that are well formed for the options in the manual", "why_tests_cant": "The tables of options are built at run time by mix-ins and overridden methods; tests call a handful of lines.", "anchors": ["pisi/cli/command.py:70-160", "pisi/cli/pisicli.py:80-143", "README.md:96-119"]}
{"id": "C188", "title": "Addresses are taken apart as RFC 3986 says and file names stay file names", "statement": "Exactly the names that begin with a scheme other than file, a colon, and something that is not a port number are remote; for scheme://host/path the scheme is in lower case, the path is the path without query and fragment and the file name is what follows the last slash; the name of a local file is its own path.", "quantifier": "all strings", "why_tests_cant": "A statement on all strings; a test looks at a few addresses, and none at files whose names have a colon or a #.", "anchors": ["pisi/uri.py:28-114"]}
{"id": "C189", "title": "The components of a repository are those of its index", "statement": "After a successful update of a repository its components are exactly those that the index describes and those that one of its packages or sources declares; each lists the packages it is described with (those of the first description with that name) followed by the packages that declare it, and the sources (those of the last description) followed by the sources that declare it, none twice.", "quantifier": "all reachable states, all indices, all component names", "why_tests_cant": "Quantifies over all indices and states, with repeated names and old contents; a test sees one index read into an empty database.", "anchors": ["pisi/data/index.py:102-111", "pisi/data/component.py:143-186", "pisi/db/source.py:72-80"]}
{"id": "C190", "title": "Names and words that others rely on", "statement": "Packages are called name-version-release[-build].pisi; next to an index are the compressed index, the hashes and the signatures under .bz2, .sha1sum and .sig; the address of a repository is in the file uri; members of packages are below install; files are stripped by the words of file(1), static libraries (.a) are only in packages whose names end in -static; config.sub and config.guess are replaced; objcopy gets the words it expects; linker scripts name the library in /lib.", "quantifier": "all names, versions, files, states", "why_tests_cant": "The names occur in two places of the code that must agree with each other and with other programs; tests use the same constants.", "anchors": ["pisi/util/pkg.py:29-50", "pisi/file.py:142-207", "pisi/data/index.py:58-79", "pisi/op/build.py:815-832", "pisi/util/fs.py:298-340", "pisi/actionsapi/libtools.py:30-75"]}
{"id": "C191", "title": "An index is read exactly if every record in it is complete", "statement": "Reading an index succeeds exactly if its distribution (if there is one), every specification, every package and every component in it have everything their kinds require: names, texts in the user's language, English or Turkish, numbers where numbers belong, ASCII where byte strings belong, and at least one entry of history for every package. One incomplete record makes the whole index unreadable. Texts that packages of a specification take from its source when the specification is read by itself are not taken over inside an index: there each package needs its own.", "quantifier": "all trees and all user languages", "why_tests_cant": "The number of records and the shapes of their trees are unlimited, and the claim has two directions: complete indices are read, and no incomplete one is.", "anchors": ["pisi/data/index.py:37-51", "pisi/exml/autoxml.py:424-443", "pisi/data/metadata.py:36-55", "pisi/data/specfile.py:147-239", "pisi/data/component.py:30-73"]}
{"id": "C192", "title": "What was read can be written and reads the same again", "statement": "Every record that was read (a specification, metadata, a list of files, an index, a component, a distribution) can be written again, and the file written reads as the same record, also with blanks added between its elements and around its texts.", "quantifier": "all record classes whose members do not get in each other's way, all trees, all user languages", "why_tests_cant": "Trees and classes are unlimited, and both the writer and the reader recurse over them.", "anchors": ["pisi/exml/autoxml.py:424-470", "pisi/exml/autoxml.py:628-660", "pisi/exml/autoxml.py:737-763"]}
{"id": "C193", "title": "Two records are equal exactly if they say the same", "statement": "Two records of one class (dependencies, history entries, components, specifications, packages of a repository and so on) are equal for == exactly if all their members have the same values, where the languages of a text may be in any order; != is the opposite.", "quantifier": "all record classes, all pairs of well-typed records of one class", "why_tests_cant": "Records nest and hold lists of any length; that equality is exact is about all pairs of them, and which members are compared depends on where they were declared.", "anchors": ["pisi/exml/autoxml.py:272", "pisi/exml/autoxml.py:302-313", "pisi/exml/autoxml.py:405-422", "pisi/data/metadata.py:36-51"]}
{"id": "C194", "title": "info tells about every known component and package", "statement": "pisi info with arguments that each are a component, a package file, an installed package or a package in a repository ends without error and prints, in the order of the arguments, the component or package of each (short or full as asked), and for a package file every file of its list exactly once if files are asked for; a name that nothing is known of prints nothing.", "quantifier": "all options, all databases, all lists of arguments", "why_tests_cant": "The arguments are any number of names in any mix, and each name is looked up in four places.", "anchors": ["pisi/cli/info.py:56-136", "pisi/op/info.py:31-39", "pisi/api.py:154", "pisi/data/specfile.py:205-224"]}
{"id": "C195", "title": "list-installed shows what is installed", "statement": "After any history of installations, upgrades, removals, configurations and changes of repositories, of which any may fail, the database of installations and the copies of the installed packages in the package database both have exactly the packages that were installed and not removed since, with the data of their last installation; list-installed ends without error and shows each of them exactly once, in the order of the names, with the version recorded. Removing an installed package never fails in the databases.", "quantifier": "all histories, all packages", "why_tests_cant": "Two databases are changed by every operation, and a failure between the two leaves them different; that they agree is an invariant over all histories.", "anchors": ["pisi/op/install.py:332-350", "pisi/op/remove.py:144-147", "pisi/cli/listcmd.py:47-64", "pisi/db/package.py:92-157", "pisi/db/install.py:105-193"]}
{"id": "C196", "title": "search shows the packages it found", "statement": "pisi search with terms ends without error and shows each package that was found.", "quantifier": "all options, all databases, all sets of packages found", "why_tests_cant": "The packages found are any number of names.", "anchors": ["pisi/cli/search.py:59-74", "pisi/cli/info.py:91-111", "pisi/api.py:154-156"]}
{"id": "C197", "title": "The dependencies of installed packages stay met", "statement": "After any sequence of installations, upgrades, reinstallations, removals, configurations and changes of repositories, without --ignore-dependency, every dependency of every installed package is met by an installed package.", "quantifier": "all sequences of commands, all packages and dependencies, all orders the planner may choose", "why_tests_cant": "The dependencies are those of everything installed in any history; a removal finds the dependents in records that other commands wrote long before.", "anchors": ["pisi/op/install.py:90-140", "pisi/op/install.py:332-350", "pisi/op/remove.py:33-73", "pisi/op/remove.py:144-208", "pisi/db/package.py:92-157", "pisi/data/dependency.py:78-87", "pisi/data/dependency.py:100-106", "pisi/op/conflict.py:80-87"]}
{"id": "C198", "title": "A removal takes everything that depends on what is removed, and no more", "statement": "After any sequence of commands without --ignore-dependency, pisi remove of any names, once agreed to, does not fail, and afterwards exactly the named installed packages (not those of system.base, unless the safety switch is off) and the installed packages that depend on one of them, directly or through others, are gone; every other package is as it was.", "quantifier": "all sequences of commands, all names, all orders the planner may choose", "why_tests_cant": "The chain of dependents has any length, and whether the records of dependents are complete depends on the whole history.", "anchors": ["pisi/op/remove.py:33-73", "pisi/op/remove.py:154-208", "pisi/db/package.py:92-157", "pisi/db/install.py:105-113"]}
{"id": "C199", "title": "What installing one package changes", "statement": "After any commands at all, installing a package that is part of a component, depends on no component and whose dependencies are met (or are to be ignored) makes it the installed package of its name and changes no other; otherwise nothing changes. If the dependencies of all installed packages were met before, they are met afterwards exactly if the new package meets what the others, and it itself, ask of its name; so adding a package that is not yet installed never breaks another.", "quantifier": "all sequences of commands, all packages", "why_tests_cant": "Whether the new version breaks another package depends on everything installed, and on two databases that every command changes.", "anchors": ["pisi/op/install.py:90-140", "pisi/op/install.py:332-350", "pisi/data/specfile.py:184-190", "pisi/data/dependency.py:78-87", "pisi/data/dependency.py:100-106", "pisi/db/package.py:92-128"]}
{"id": "C200", "title": "list-upgrades shows what can be upgraded", "statement": "If all releases can be compared, pisi list-upgrades ends without error, with any options, and shows exactly the installed packages that the first repository offering them has a newer package of: by the build numbers if both have one, by the releases alone with --ignore-build-no.", "quantifier": "all sequences of commands before it, all packages and repositories, all options", "why_tests_cant": "What is shown depends on the whole history of installations and repositories; the option of the listing goes through three modules.", "anchors": ["pisi/cli/listcmd.py:224-246", "pisi/op/listops.py:35-38", "pisi/op/upgrade.py:42-53", "pisi/cli/__init__.py:67-72"]}
{"id": "C201", "title": "check tells which packages are corrupt", "statement": "pisi check ends without error and tells of every package given, or of every installed package if none is given, whether it is not installed or has files that were changed, and says nothing of intact ones.", "quantifier": "all sequences of commands before it, all names, all states of the files", "why_tests_cant": "The names are any number of installed and other ones in any order.", "anchors": ["pisi/cli/check.py:47-62", "pisi/api.py:146-159", "pisi/op/check.py:32"]}
{"id": "C202", "title": "The text of a dependency says what it asks", "statement": "Dependencies that are shown by the same text name the same package and are met by the same versions and releases.", "quantifier": "all dependencies, all versions and releases", "why_tests_cant": "The text is put together from up to five parts; that no two different dependencies have the same text is about all pairs.", "anchors": ["pisi/data/dependency.py:37-47"]}
{"id": "C203", "title": "getNode finds the first node at a path", "statement": "xmlext.getNode(node, path) is the first node, in the order of the document, that is reached by the tags of the path, and None only if there is no such node; getAllNodes gives all of them in that order.", "quantifier": "all trees, all paths", "why_tests_cant": "Trees have any depth and any number of children with the same tag.", "anchors": ["pisi/exml/xmlextpiks.py:39-53", "pisi/exml/xmlextpiks.py:96-118"]}
{"id": "C204", "title": "Adding a node at a path changes nothing else", "statement": "xmlext.addNode appends something to the children of exactly one element and changes nothing else. By default there is one more node at the path afterwards, behind all others, with the new node in it; with branch=False the new node is the last child of the last node at the path, reached by always taking the last child, and a node is made at the path only if there is none such.", "quantifier": "all trees, all paths, all new nodes", "why_tests_cant": "Trees have any depth, and part of the path may exist any number of times.", "anchors": ["pisi/exml/xmlextpiks.py:120-169"]}
{"id": "C205", "title": "A text added at a path is read there", "statement": "A text that is added by xmlext.addText at a path where there was nothing is what getNodeText gives at that path, without blanks at its ends.", "quantifier": "all trees, all paths, all texts", "why_tests_cant": "Adding follows the last of several children with the same tag and reading the first.", "anchors": ["pisi/exml/xmlextpiks.py:72-118", "pisi/exml/xmlextpiks.py:136-172"]}
{"id": "C206", "title": "The libraries for XML can replace each other", "statement": "If piksemel is missing, one of the two other implementations is used, and then the same files can be read, the same records written and the same nodes found in a tree and added to it.", "quantifier": "all implementations, all files and trees, all paths", "why_tests_cant": "Equality of two implementations is about all trees.", "anchors": ["pisi/exml/xmlext.py:14-25", "pisi/exml/xmlfile.py:16-27", "pisi/exml/xmlfilepiks.py:69-86", "pisi/exml/xmlfilecdom.py:70-84", "pisi/exml/xmlfilemdom.py:62-75", "pisi/exml/xmlextmdom.py:64-198", "pisi/exml/autoxml.py:424-460"]}
{"id": "C207", "title": "The console shows every message once, on its stream, and as it was given", "statement": "A run of commands prints messages with ctx.ui: info, warning, error, action, status, notify and debug, in any order and number. None of the calls fails. Information, actions, statuses and notifications are shown on standard output and warnings and errors on standard error, each stream in the order of the calls and nothing else on it; messages for --verbose (--debug) only are shown exactly with that option. With --no-color the bytes are the texts, with 'Warning: ' and 'Error: ' before warnings and errors; with colours they are the texts after removing the control sequences. If there is a log, it has every warning, error, action and notification that has a text, in order and unchanged. (False of the code: a status with a character outside of ASCII cannot be made the title of an xterm, and an action for --verbose only is always shown. Without such actions it is exact: the calls fail if and only if there is such a status, and otherwise everything else holds.)", "quantifier": "All sequences of calls with messages without escape characters, all settings of --no-color, --verbose, --debug, terminals with and without a title, with and without a log", "why_tests_cant": "The tests never look at what is printed, and never run on a terminal with a title.", "anchors": ["pisi/cli/__init__.py:56-97", "pisi/cli/__init__.py:136-159", "pisi/cli/colors.py:62-68", "pisi/util/term.py:22-31", "pisi/ui.py:67-70"]}
{"id": "C208", "title": "Installing a package again repairs it and changes nothing else", "statement": "Installing an installed package again (same version, same list of files) succeeds. Afterwards every file, link and directory of the package is there as in the package, whatever had been deleted, overwritten or replaced; the configuration files the user has changed are as they were, with those of the package beside them under the name .newconfig; no other path of the file system has changed. If nothing was missing or changed, nothing changes at all. (False of the code: a directory in the place of a file makes the installation fail after other files have been replaced, and a file of the user with the name of a changed configuration file and .old is deleted. Proved whenever files and directories are not in each other's places, configuration files are no links, and no .old file is beside a changed one.)", "quantifier": "All packages (any files, links and directories), all file systems, all hash functions, any set of changed configuration files", "why_tests_cant": "The tests install a few packages once; what can be missing, changed or in the way are all subsets and all contents.", "anchors": ["pisi/op/install.py:247-309", "pisi/archive.py:244-282", "pisi/util/fs.py:38-43"]}
{"id": "C209", "title": "Failures are told, with the reason and the right advice", "statement": "A run of pisi ends with status 0 exactly if nothing failed (an upgrade of pisi itself is no failure), and then nothing is printed after the output of the command. After a failure that is not an interrupt the text of the exception is printed, exactly once; with --debug there is a traceback; and the advice to use --debug is given exactly if that shows a traceback that is not there now. (False of the code: the database asking for recovery gives no traceback with --debug but still the advice to use it, and failures before the options are looked at give the advice although --debug changes nothing. Proved: status and reason for all failures, exactly when there is a traceback, and exactly when the advice is right.)", "quantifier": "All exceptions, before and after the initialisation, with and without --debug", "why_tests_cant": "The handler is installed by the executable and runs outside of the tests; the combinations of kinds of failures and options are never run.", "anchors": ["pisi-cli:34-72", "pisi-cli:74-83", "pisi/context.py:28-29"]}
{"id": "C210", "title": "The check finds a freshly installed package intact and later exactly what was changed", "statement": "After a package was installed, for the first time or again, over whatever was there, pisi.op.check.check finds nothing corrupt in it. If afterwards the texts of some of its files are changed, the check reports exactly those that are no configuration files and have another hash now. (False of the code for packages installed below a directory given by --destdir: the check looks below /.)", "quantifier": "All packages (any files, links and directories), all file systems, all hash functions, all destination directories, all later changes of texts", "why_tests_cant": "The tests have no check of an installed package; the changes are all texts of all files.", "anchors": ["pisi/op/check.py:32-45", "pisi/op/install.py:247-309", "pisi/archive.py:244-282"]}
{"id": "C211", "title": "Building in stages does and makes the same as building at once", "statement": "Whatever increasing stages a build is divided into (pisi build --until=...), the last being the packages: together the commands do the same work in the same order as a build in one shot, stop at the same failure and make the packages from the same specification. (False of the code where the checks of the build in one shot would fail or the component is that of the directory: builds in stages check neither patches nor build dependencies and do not look for the component.)", "quantifier": "All specifications, installed systems, repositories and options, all divisions into stages, all failures of the steps", "why_tests_cant": "The tests build in one shot only; there are sixteen divisions into stages, each with failures at every step.", "anchors": ["pisi/op/build.py:185-209", "pisi/op/build.py:877-947", "pisi/cli/build.py:104-108"]}
{"id": "C212", "title": "An upgrade puts the new version in place and keeps the files of the user", "statement": "After the files of a package were upgraded every member of the new version is in place, in its directories, except that configuration files of the user (other ones than the old version had, or where it had none) are kept with those of the package beside them as .newconfig; nothing else is changed, and the check finds the new version intact. (False of the code: an upgrade to a version that lacks a file of the old one ends with a TypeError when the new files are in place; a file of the user where the new version has a configuration file and the old one none is overwritten.)", "quantifier": "All pairs of versions (any files, links and directories), all file systems, all hash functions, all destination directories", "why_tests_cant": "The two lists of files are matched by position after sorting and filtering; the tests upgrade one package, in one file system.", "anchors": ["pisi/op/install.py:247-309", "pisi/op/remove.py:92-130", "pisi/archive.py:244-282"]}
{"id": "C213", "title": "Packages installed one after the other are all in place", "statement": "If each of some packages could be installed and no two have a file in common, they can be installed one after the other, in any order with the same result: the members of all are in place, changed configuration files are kept with those of the package beside them, nothing else has changed, and the check finds all of them intact. (False of the code: one may have a file where another has a directory; the search for file conflicts compares equal paths only.)", "quantifier": "All lists of packages (any number, any files, links and directories), installed for the first time or again, all file systems, hash functions and destination directories", "why_tests_cant": "What one installation leaves is where the next begins: conditions have to be carried through the whole list; the tests install at most two packages.", "anchors": ["pisi/op/install.py:247-309", "pisi/op/install.py:143-160", "pisi/op/check.py:32-45"]}
{"id": "C214", "title": "Whatever is installed and removed, installed packages stay intact and changes of configuration files stay", "statement": "Packages without a common file can be installed, installed again and removed in any order, while the user changes configuration files: every operation on the files succeeds, the check finds whatever is installed intact, a text the user has written into a configuration file stays there, through installations and removals, until they change it, and files that are no package's are untouched. (False of the code: one package may have a file where another has a directory. Directories of a package that are empty may be removed with another package; the check does not notice.)", "quantifier": "All sets of packages, all finite histories of installations, reinstallations, removals (with any content of the file database) and changes of configuration files, all file systems, hash functions and destination directories", "why_tests_cant": "An invariant of all histories; the tests run one installation and one removal.", "anchors": ["pisi/op/install.py:247-309", "pisi/op/remove.py:70-71", "pisi/op/remove.py:92-130", "pisi/op/check.py:32-45"]}
{"id": "C215", "title": "The progress of downloads is shown as it is", "statement": "While a file is fetched the per cents shown never fall; ' [complete]' is shown exactly once, in the last line, when everything is there; a local file is copied unchanged; and the remaining time shown is right at a constant speed. (False of the code: if the server does not tell the size the per cent stays 0 and ' [complete]' is never shown; the remaining time of a download that is taken up again counts what was there as if it had been fetched now, so that it is too short, and days are left out; a division by the time passed may fail in the moment of the start.)", "quantifier": "All files, sizes, sequences of parts and readings of the clock", "why_tests_cant": "What is shown depends on the clock at every part; the tests look at no output.", "anchors": ["pisi/fetcher.py:64-128", "pisi/fetcher.py:182-240", "pisi/ui.py:28-43", "pisi/cli/__init__.py:127-135"]}
{"id": "C216", "title": "Tools are found in PATH, those for the host first", "statement": "CC, AR, LD and the like give the name with the host in front if a tool of that name can be run from PATH, else the plain name if that can be run, else an error. (False of the code: anything of the name counts, directories and files that cannot be run as well.)", "quantifier": "All values of PATH, hosts, names and file systems", "why_tests_cant": "The tests run on one machine with one PATH.", "anchors": ["pisi/actionsapi/get.py:165-213"]}
{"id": "C217", "title": "help shows the help of the commands it is asked about", "statement": "help followed by names of commands shows the help of each of them in that order. What is shown is always the help of the first words, each that of its own command, and without any word the general help; with the long options on the line written in full, help goes on until a word names no command, and shows everything exactly if no word names a command whose options cannot be read.", "quantifier": "all command lines, all lists of words", "why_tests_cant": "Every combination of commands and options; the options on the line are read again by every command named, with its own table of options and abbreviations.", "anchors": ["pisi/cli/help.py:44-58", "pisi/cli/command.py:53-78", "pisi/cli/command.py:162-167"]}
{"id": "C218", "title": "Packages are created in the directory where pisi was started", "statement": "While sources are built, the working directory changes for unpacking, patches, actions and packaging; afterwards it is the same as before, and every package of every source is created in the output directory seen from where pisi was started, in the order of the sources.", "quantifier": "all sources, all actions, all failures, any number of sources one after the other", "why_tests_cant": "Actions may go anywhere and any step may fail; no test covers all ways of getting there and back.", "anchors": ["pisi/op/build.py:185-208", "pisi/op/build.py:402-419", "pisi/op/build.py:722-870", "pisi/util/fs.py:242-263", "pisi/archive.py:104-130", "pisi/cli/build.py:104-109"]}
{"id": "C219", "title": "Installed packages stay intact through upgrades and downgrades, even failed ones", "statement": "Take any number of packages, each in any number of versions, where different packages have only directories in common and the versions of one package agree on what is a directory and what a configuration file. Whatever is done with them one after the other - installing a version, upgrading or downgrading to another one, installing the same again, removing, the user editing configuration files of installed versions - and whether or not some of it fails: of each package at most one version is installed, and its files other than configuration files are in place exactly as in that version, as the check finds, unless the last installation of that very package has failed; nothing fails. A text that the user has written into a configuration file, and that no version has, stays there, and so do files of no package. (Of the code it is false that nothing fails: an installation over a version with a file that the new one lacks fails when all files of the new version are in place and the old one stays recorded; these are exactly the failures, and installing the recorded version again repairs it.)", "quantifier": "for all sets of packages and versions, all file systems with room for them, all histories", "why_tests_cant": "Histories of upgrades, downgrades, failures, removals and edits are unbounded, and each step meets the file system all earlier ones have left; tests upgrade one package once.", "anchors": ["pisi/op/install.py:247-309", "pisi/op/install.py:172-226", "pisi/op/remove.py:93-130"]}
{"id": "C220", "title": "Only files of installed packages are there", "statement": "With packages in versions as in C219, after any history of installations, upgrades, downgrades, removals and edits: at a place where nothing was at the beginning and where some version has a file or a link that is neither a configuration file nor permanent, there is something exactly if an installed version has something there; so when everything has been removed none of it is left. (Of the code this is false after failed upgrades, whose new files stay although the old version is recorded; nothing else is ever left.)", "quantifier": "for all sets of packages and versions, all file systems with room for them, all histories, all places", "why_tests_cant": "That nothing is left behind is a statement about all histories and all places; tests look at a few files after one removal.", "anchors": ["pisi/op/install.py:247-309", "pisi/op/remove.py:93-130", "pisi/op/remove.py:61-83"]}
{"id": "C221", "title": "What build and emerge do with their options and names", "statement": "build and emerge accept the steps unpack, setup, build, install and package and the formats 1.0 and 1.1 and refuse all others before anything is done, not even the databases opened; otherwise build treats every named source, in the order given, until and including the given step or in full, with the given format and into the given directory or the working directory, and stops at the first that fails; without names there is only the help. (Of the code this is false of emerge, which accepts any step and any format and does not look at the step; and build looks at the format after the databases were opened, but makes nothing then; an empty step counts as none.)", "quantifier": "for all options, all lists of names, all outcomes of the single builds", "why_tests_cant": "The order and the completeness of what is done is a statement about all lists of names and all combinations of options and outcomes; tests run one command line.", "anchors": ["pisi/cli/build.py:79-110", "pisi/cli/emerge.py:49-64", "pisi/cli/build.py:49-77"]}
{"id": "C222", "title": "Installing again after interruptions", "statement": "If pisi is killed or the power fails while the files of a package are installed, at any step and any number of times in a row, then installing the package again gives what an uninterrupted installation would have given: all members are in place, the configuration files that the user has changed are kept and nothing else has changed. (Of the code this is false of configuration files: interrupted between moving the user's file aside and the end, the next installation puts the package's in its place and the user's stays beside it as .old; interrupted while that file is written, what there is of it is taken for the user's, and the user's own text is lost.)", "quantifier": "for all packages, all file systems, all numbers and places of interruptions, all hash functions", "why_tests_cant": "Every step of every installation, every point of every write and every sequence of such points is a different state; tests interrupt a run at few of them, if any.", "anchors": ["pisi/op/install.py:247-309", "pisi/archive.py:244-282"]}
{"id": "C223", "title": "Removing again after interruptions", "statement": "If pisi is killed or the power fails while the files of a package are removed, after any system call and any number of times in a row, then removing the package again succeeds and gives what an uninterrupted removal would have given. (Of the code this is false of directories: one that was emptied just before the interruption is not removed any more, since the file whose removal would have led to it is gone; files and links are always as they should be.)", "quantifier": "for all lists of files, all file systems, all records of the files database, all numbers and places of interruptions, all hash functions", "why_tests_cant": "Every system call of every removal and every sequence of such points gives a different state; tests interrupt a run at few of them, if any.", "anchors": ["pisi/op/remove.py:58-82", "pisi/op/remove.py:93-130"]}
{"id": "C224", "title": "An upgrade that was interrupted can be repeated", "statement": "If upgrading the files of a package is interrupted at any point, any number of times, upgrading again gives what the first upgrade would have given: the new version is in place, the configuration files that the user had changed are kept, and nothing else has changed. (Of the code this is false of configuration files: interrupted once the new version's file is written, the next upgrade takes that for the user's and deletes the file in which the user's own text was kept.)", "quantifier": "For all old and new versions, all file systems with room for the new one, and all sequences of interruptions after any system call.", "why_tests_cant": "There is an interruption point after every system call and byte written, over all file systems and all pairs of versions; tests run upgrades to their end.", "anchors": ["pisi/op/install.py:247-309", "pisi/archive.py:244-282"]}
{"id": "C225", "title": "Packages stay intact through any history of operations and interruptions", "statement": "Of packages that have only directories in common, whatever is installed, installed again and removed in any order, with configuration files changed by the user in between and pisi killed at any step any number of times: every package that is recorded as installed, and with which nothing was interrupted since it was last installed to the end, is intact; every package can be installed to the end, and is intact then; every installed one can be removed to the end, and then all its files and links that are to go are gone; files of no package stay; and what the user has written into a configuration file stays unless an operation on that very package was interrupted.", "quantifier": "for all sets of proper packages with only directories in common (and no members named like kept configuration files), all file systems with room for them, all histories of any length, all places of interruption, all contents of the file database", "why_tests_cant": "Histories, interruptions and file systems are unbounded and multiply; a test runs few histories and interrupts hardly any of them.", "anchors": ["pisi/op/install.py:247-309", "pisi/op/remove.py:58-130", "pisi/archive.py:244-282"]}
{"id": "C226", "title": "Installing and removing change the disk one step at a time", "statement": "While the files of a package are installed or removed the disk changes by single steps: one file or link is deleted, one empty directory is removed, one directory or link is made where there was nothing, one file is renamed, one file is made or emptied, one character is added at the end of one, or a whole directory that is in the way of a link is deleted; everything else stays as it was at each step. A removal only takes files, links and empty directories away: it never makes, renames or writes anything. What is there at the end is what the last step left. So whenever pisi is stopped, the disk holds what the steps up to then have made of it, and at most one name is half-way.", "quantifier": "for all packages, file systems, destinations, contents of the file database, installations and reinstallations, also when they fail in the middle", "why_tests_cant": "The states between system calls cannot be seen by a test that looks at the disk before and after.", "anchors": ["pisi/op/install.py:247-309", "pisi/op/remove.py:93-130", "pisi/archive.py:244-282"]}
{"id": "C227", "title": "Packages stay intact through any history of upgrades and interruptions", "statement": "Of packages in several versions, of which different packages have only directories in common, whatever versions are installed, upgraded, downgraded and removed in any order, with configuration files changed by the user in between and operations failing or being killed at any step any number of times: every package that is recorded as installed, and with which nothing stopped since it was last installed to the end, is intact; every version can be installed to the end, and is intact then; every installed one can be removed to the end, and then all its files and links that are to go are gone; files of no package stay; and what the user has written into a configuration file of all versions stays unless an operation on that very package stopped. (Of the code this is false of versions that no longer have a file of the installed one: installing them fails, as in C219.)", "quantifier": "for all families of proper versions, all file systems with room for them, all histories of any length, all places of interruption or failure, all contents of the file database", "why_tests_cant": "Histories, versions, interruptions and file systems are unbounded and multiply; a test runs few histories and interrupts hardly any of them.", "anchors": ["pisi/op/install.py:247-309", "pisi/op/remove.py:58-130", "pisi/archive.py:244-282"]}
{"id": "C228", "title": "What graph draws", "statement": "If the records of all packages to be shown are there, `pisi graph` writes a file that describes exactly the packages asked for (those named, or all installed ones with --installed, all of the given repository, or all of all repositories) and everything they depend on, with a node for each that shows name, version and release in the place asked for, and exactly their dependencies as edges; conflicts are shown, too; with --ignore-installed installed packages are not shown; if something is not known, the output file stays as it was.", "quantifier": "for all consistent databases, options, lists of names, iteration orders of sets and previous contents of the output file", "why_tests_cant": "A test draws a few graphs; that exactly the reachable packages of the right repository are drawn holds for every database and option only by proof.", "anchors": ["pisi/cli/graph.py:61-85", "pisi/op/graph.py:26-58", "pisi/data/pgraph.py:20-83", "pisi/data/graph.py:135-156", "pisi/db/itembyrepo.py:78-166"]}
{"id": "C229", "title": "Packages in conflict are not installed together", "statement": "After any sequence of installations and upgrades (of packages or files, also failed and interrupted ones), removals and changes of repositories, without --ignore-file-conflicts and --ignore-dependency, no installed package declares a conflict with another installed one. (False of the code: only packages that are to be installed are asked for conflicts, so that a package with which an installed one declares a conflict can be added; and conflicting packages of system.base stay.)", "quantifier": "for all sequences of commands, packages, versions, declared conflicts, answers and iteration orders, with a failure or an interruption at any point of every request", "why_tests_cant": "Which packages are installed together depends on the whole history; a test tries a few pairs in one order, and the one that breaks the rule is the order nobody tried.", "anchors": ["pisi/op/conflict.py:34-87", "pisi/op/install.py:129-133", "pisi/op/install.py:481-482", "pisi/op/install.py:579-580", "pisi/op/upgrade.py:238-239", "pisi/op/remove.py:154-208"]}
{"id": "C230", "title": "Every file belongs to one installed package, and the files database says which", "statement": "After any sequence of installations, upgrades, reinstallations and removals without --ignore-file-conflicts: the files database names a package for a path exactly if that package is installed and has the path in its file list, and two installed packages do not have the same (non-directory) path. (False of the code: upgrades always ignore file conflicts, so that an upgrade can bring a file another package has; the record then names the later one, and removing either deletes the record.)", "quantifier": "for all sequences of operations, file lists, answers of os.path.isdir at each check and paths", "why_tests_cant": "Ownership is the result of the whole history of operations, each of which deletes and adds records of many paths; a test looks at a few packages in a fixed order.", "anchors": ["pisi/op/install.py:147-163", "pisi/op/install.py:302-314", "pisi/op/install.py:332-347", "pisi/op/upgrade.py:165", "pisi/op/remove.py:30-42", "pisi/op/remove.py:144-147", "pisi/db/files.py:23-51"]}
{"id": "C231", "title": "A downloaded file is a version that a source had", "statement": "When the file changes on its server, or the mirrors have different versions, and downloads are interrupted and repeated in any way, what is at the destination after a download is one of the versions. (False of the code: the partial file of one version is continued with the end of another, also within one download from two mirrors.)", "quantifier": "for all versions, servers, mirrors, numbers of attempts and points of interruption", "why_tests_cant": "Which versions meet in one file depends on when the file changed and where each attempt broke off; a test uses one server with one content.", "anchors": ["pisi/fetcher.py:146-180", "pisi/fetcher.py:241-257", "pisi/fetcher.py:296-313", "pisi/fetcher.py:363-383"]}
{"id": "C232", "title": "Several processes may fetch the same file", "statement": "When any number of pisi processes fetch the same address into the same directory at the same time, the file at the destination is at every moment what it was before or the whole file; and when all of them have come to an end it is whole. (False of the code, in both parts: all processes share one partial file. A process can move what another has just emptied; and a process that continues the file another is still writing makes characters appear twice, for good.)", "quantifier": "for all files, numbers of processes and interleavings of their steps, with processes killed at any point", "why_tests_cant": "The outcome depends on the interleaving of the processes; a test runs in one order.", "anchors": ["pisi/fetcher.py:146-180", "pisi/fetcher.py:241-257", "pisi/fetcher.py:296-313", "pisi/data/package.py:87-90", "pisi/cli/info.py:58"]}
{"id": "C233", "title": "What is read from a package file is what is in it", "statement": "Reading a package file (for installing it, for info and for planning) gives exactly the metadata and the list of files that are in it, whatever earlier commands read and wherever they were interrupted, and whatever other commands do at the same time; a package without one of the two is rejected. (False of the code: all commands unpack into the same files of the temporary directory. A command can get the metadata of its package with the list of files of another one, and for a package without files.xml it silently takes the list of the package that was read before.)", "quantifier": "for all packages, orders of members, previous contents of the directories, numbers of processes and interleavings of their steps, with processes killed at any point", "why_tests_cant": "The outcome depends on what other commands left in the directory and on the interleaving with those that run; a test reads one package in an empty directory.", "anchors": ["pisi/data/package.py:133-156", "pisi/archive.py:227-288", "pisi/config.py:102-112", "pisi/cli/info.py:58", "pisi/op/info.py:35-40", "pisi/op/install.py:84"]}
{"id": "C234", "title": "delete-cache may run while files are fetched", "statement": "When `pisi delete-cache`, which takes no lock, runs at any time while packages or sources are fetched, then at the destination of each fetch there is in the end what was there before, nothing, or the whole file. (False of the code: if the partial file of an earlier attempt is deleted after the rest of it was requested and before it is opened for appending, the rest alone is moved to the destination and taken for the whole file from then on.)", "quantifier": "for all files, numbers of processes, points of interruption, and moments of deletion", "why_tests_cant": "The moment of the deletion decides; a test deletes before or after, not in between.", "anchors": ["pisi/api.py:138-141", "pisi/cli/deletecache.py:43", "pisi/fetcher.py:146-180", "pisi/fetcher.py:241-257", "pisi/fetcher.py:296-313", "pisi/data/package.py:87-90"]}
{"id": "C235", "title": "The directory given with --destdir", "statement": "A command that is given --destdir works in the directory to which that name leads, through links and .. as the kernel follows them. If it is not there it is made, with all that is missing above it. The path recorded for the rest of the command leads through directories only, and nothing was changed but by making directories.", "quantifier": "all file systems with links anywhere, all current directories and all names, relative and absolute", "why_tests_cant": "Links may stand at every component of a name, lead to other links, be absolute or relative and lead upwards; all combinations with missing directories cannot be tried.", "anchors": ["pisi/cli/command.py:Command.process_opts"]}
{"id": "C236", "title": "What failed builds leave behind", "statement": "However often the building of package files fails or is killed, every package file is the one that was there before or a whole new one, no other package file is touched, and the next build that is not disturbed writes all packages whole.", "quantifier": "all lists of packages, scripts and files, both package formats, all earlier contents, all numbers of builds stopped by an exception or killed at any step, also while lzma writes", "why_tests_cant": "A build can be stopped between any two steps, several times in a row, with different remains in its directory; tests cannot stop it everywhere.", "anchors": ["pisi/op/build.py:Builder.build_packages", "pisi/archive.py:ArchiveTar.close", "pisi/api.py:finalize"]}
{"id": "C237", "title": "Builds at the same time", "statement": "Builds that run at the same time and write different package files do not disturb each other: each is at every moment where it could be if it were alone, each can go on to its end, and one that has ended well has written all of its packages whole, wherever the others are stopped.", "quantifier": "all numbers of processes, all packages and formats, all interleavings of their steps, all places where some of them fail or are killed", "why_tests_cant": "The number of interleavings is not bounded, and a test sees only those that the scheduler happens to choose.", "anchors": ["pisi/op/build.py:Builder.build_packages", "pisi/op/build.py:Builder.pkg_dir", "pisi/cli/build.py:Build.run", "pisi/db/lockeddbshelve.py:init_dbenv", "pisi/api.py:finalize"]}
{"id": "C238", "title": "Installing what failed builds have left", "statement": "Installing a package file that failed or killed builds have left is refused, or records the package with its own list of files and unpacks all of them; whole package files are installed so whatever was installed before.", "quantifier": "all packages and formats, all histories of failed and killed builds, all earlier contents of the temporary directory and all earlier installations, also of broken files", "why_tests_cant": "Every place where a build can stop leaves another file, and what an installation makes of it depends on all packages that were read before it.", "anchors": ["pisi/data/package.py:Package.read", "pisi/data/package.py:Package.extract_install", "pisi/op/install.py:Install.install", "pisi/op/build.py:Builder.build_packages"]}
{"id": "C239", "title": "Waiting for COMAR to come back", "statement": "When COMAR restarts itself, waiting for it always ends: with success as soon as an attempt to reach it succeeds, and otherwise after five seconds; if COMAR is back within the five seconds it is found.", "quantifier": "all behaviours of the server over time, all durations of the attempts and sleeps", "why_tests_cant": "The loop counts with a float from which 0.2 is taken repeatedly, and its outcome depends on when the server comes back relative to the attempts; tests with real time see only few of these.", "anchors": ["pisi/comariface.py:wait_comar"]}
