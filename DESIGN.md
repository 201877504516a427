# Formal model of PISI in Lean 4

Source: `/repo` (Python 2, read as text, never run).  Model and proofs: `/verif/lean`.
Properties: `/verif/properties.jsonl`.  Status per property: `/verif/MANIFEST.json`.

## Trusted base

* Lean 4.33.0's kernel.  No axioms are added.  Theorems depend on at most
  `propext`, `Classical.choice` and `Quot.sound` (Lean's standard axioms).
  No `sorry`, `native_decide` or `bv_decide`.
* The reading of the Python source: every definition cites the file and lines
  it models.  The tie between model and code is this citation only.
* Python 2 facts used: comparison of numbers with strings (number < string),
  `int()` parsing of ASCII strings, arbitrary iteration order of sets and
  dicts, leaking list-comprehension variables, identity `!=` when `__ne__` is
  missing, lazy evaluation of the class in `except`.
* Services assumed, not modelled: Berkeley DB storage (a key/value map with
  atomic commit/abort), the file system (a map from paths to nodes),
  SHA1 (an arbitrary function; where needed, equality of hashes is taken as
  the code's notion of "unchanged"), HTTP/FTP (an arbitrary function from URL to
  result), zip/tar decoding, COMAR, the user's answers (arbitrary Booleans).

## Conventions

* Strings that are parsed are `List Char`; names used only as keys are an arbitrary
  type with decidable equality or `String`.
* Exceptions are values (`Except Err α`), one constructor per Python
  exception that can be observed.
* A Python set is a list; wherever the code iterates over a set the
  model iterates over a list in arbitrary order, either because the theorem
  quantifies over all lists, or because a `sched` parameter (an arbitrary
  permutation) is applied.
* Layout: `Verif/Model/*.lean` holds definitions only, `Verif/Lemmas/*.lean`
  auxiliary lemmas, `Verif/Props/*.lean` the property theorems with their
  specifications and non-vacuity examples.
* When the code violates a property, the full statement is stated as a
  `def ... : Prop`, its negation is proved with a witness
  (`..._refuted`), and the largest true part is proved as `..._partial`.

## Plan per property

| id | modelled code | approach |
|----|---------------|----------|
| C01 | version.py | parse to items; compare with padding; show it equals the order on zero-padded item sequences; total preorder |
| C02 | version.py | heap of version objects, `compare` returns updated operands; invariant over histories |
| C03 | version.py | theorems over all bases/numbers through the parser |
| C04 | version.py, fun.py multisplit | independent inductive grammar; iff |
| C05 | dependency.py | iff with a declarative spec |
| C06 | graph.py | DFS with explicit fuel, fuel proved sufficient; colour invariant |
| C07 | graph.py | cycle iff `TransGen edge u u` |
| C08 | graph.py | refuted (reported path starts at the DFS root); partial: path is a walk ending at a vertex of a cycle |
| C09-C11 | install.py plan_install_pkg_names, pgraph.py | closure loop; reachability spec; C06 for order |
| C12 | same + check_relations | refuted (repository version not compared against the dependency); partial under the missing check |
| C13-C15 | remove.py plan_remove | closure; order refuted, partial for discovered edges; forest argument for acyclicity |
| C16 | upgrade.py plan_upgrade | two closures |
| C17 | upgrade.py is_upgradable | iff |
| C18 | upgrade.py upgrade_pkg_names | refuted (list-comprehension variable leaks into the loop) ; partial without the security option |
| C19 | remove.py remove | refuted through the closure; partial for requested packages |
| C20 | db/package.py | refuted (removal drops the record of dependents; re-adding keeps stale records); soundness for histories that add only absent packages, completeness for histories that remove only packages nothing depends on; exact after `update_db` |
| C21 | db/install.py | refinement to a map |
| C22 | db/install.py | refuted (remove/purge leave the pending mark); partial for histories that do not remove pending packages |
| C23, C58 | configurepending.py, db/install.py | topological order of the pending graph; prefix induction over the run; C58 refuted (deferred install, removal, ordinary install), partial |
| C24 | db/files.py | last-writer refinement; second half refuted, partial |
| C25, C26 | db/itembyrepo.py | refinement to a map on pairs; priority lookup |
| C27 | db/repo.py, db/source.py, data/component.py | invariant over histories of the whole database system |
| C28 | data/index.py, db/package.py | frame theorem |
| C29, C30 | op/conflict.py, remove.py, op/component.py | iff by loop invariant (installed members of the order count as conflicting too, which the code does and the property text was corrected to say); C30 refuted through the safety switch, partial |
| C31-C32, C62 | install.py extract_install, archive.py unpack_file_cond | file-system map; every operation yields the list of states it passes through; Hoare-style rules over these traces. Refuted by backup-name clashes; partial. C62 refuted (unbound method call), partial |
| C33-C34 | remove.py remove_file | decision and frame theorems, totality on well-formed file systems; C34 refuted when keys are relative, partial |
| C35 | dbshelve.py, context.py txn_proc | programs of reads/writes with nested helper calls, snapshot semantics; context.txn_proc variant refuted (undefined name), partial |
| C63 | op/install.py, op/remove.py database phase | same programs; refuted (only DBError aborts), partial |
| C36, C66, C68 | fetcher.py | traces of file system states, network as an arbitrary function; prefix invariant over sequences of interrupted attempts; C36 refuted by a stale .part file, C66 by a complete one; frame theorem |
| C37, C67 | fetcher.py fetchFromMirror, mirrors.py | induction over the mirror list; refuted, partial; relational spec of the mirrors file |
| C38 | sourcearchive.py | case analysis, combined with C36 |
| C39 | search/invertedindex.py | refinement over histories; refuted (terms spread over repositories), partial, exact behaviour |
| C40 | search/*, db/package.py, op/search.py | joint history of package databases and indices: completeness in all states, soundness in the tracking stores; refuted after a repository update, partial |
| C64 | search/preprocess.py | refuted for Turkish, partial |
| C65 | search/tokenize.py | inductive splitting spec; existence and uniqueness |
| C41-C43 | util/path.py, fun.py, pkg.py | string algebra by induction; C42 refuted for the empty suffix |
| C59 | util/path.py parentpath | refuted (path without a separator); partial |
| C60-C61 | util/pkg.py | the parser loop stops exactly at the version; injectivity by unique splitting |
| C44 | op/build.py calc_build_no | last of a sorted list is a maximum; sorted lists of a permutation are equal |
| C45-C46, C69 | op/build.py build_until, sourcearchive.py, archive.py | a build is a list of atomic steps (each prefix of the state file is one), a request may stop before any of them; weakest-precondition rules, induction over histories of requests. Refuted, partial, exact phases |
| C70 | op/build.py run_action_function | refuted (missing raise) |
| C47-C48, C71-C72, C79 | archive.py ArchiveZip | own file system in Model/Unpack.lean, with links and ".." followed in every component of a path; bit arithmetic by Nat.testBit; an invariant (no links below the target other than members) kept by every step of the unpacking. C48 refuted by absolute names, ".." and links, partial for clean names. C79 by a second invariant (the places above members are directories or empty) under which every step succeeds. Not modelled: tar and binary archives (Python's tarfile), compression |
| C49, C73-C78 | configfile.py, config.py, archive.py:155-157, fetcher.py:271-294 | lookup in a section; ConfigParser modelled as blocks of options (lower-cased names, later ones replace, [DEFAULT]); induction over the options. Not modelled: the line syntax and %-interpolation of ConfigParser |
| C50 | oo.py constant | history induction: the value is that of the first assignment |
| C51-C52, C80-C82 | exml/autoxml.py, exml/xmlfilepiks.py, xmlext; data/*.py declarations | classes as lists of members (attribute, text, tag, localised tag, lists, nested classes), an interpreter for encode/decode/errors by structural recursion; what a tree shows to each member is kept by the encoding of all others, mutual induction over classes; layout (white space) as a relation between trees. C51 refuted (0, white space), partial; C80 refuted (optional localised text), C81 refuted (mandatory 0, non-ASCII), C82 refuted (language). The classes of pisi/data are listed in Model/XmlClasses.lean. Not modelled: piksemel's parser and printer (escaping), the hooks, Float members, the size of machine integers, comments in the list of members |
| C83 | op/install.py 147-163 on top of the extraction of C31-C32 | the conflict check as a filter over the file list; frame lemmas (`Keeps`) for backup, extraction and restoring over traces of all intermediate states. Refuted three ways (link over a directory, backup names, upgrades), partial |
| C84-C85 | op/install.py 165-223 | the comparison of versions, releases and builds with the user as a function from questions to answers; connected with the version grammar and order of C01-C04 and with `is_upgradable` of C17. Both refuted, partial |
| C86-C88 | op/install.py 389-492 and, for extra packages, 495-580 | the files as a list of metadata (the last one per package counts); planning is another instance of the generic closure of `Lemmas/Plan.lean`; execution as for C12, with frame lemmas for the two databases. Left out: questions (answered yes), conflicts (C29-C30), components, additions from system.base, `ignore_dependency` |
| C89-C95 | op/build.py 50-93, 347-369, 563-639, util/fs.py 58-80, 109-191 | build root as part of the file system of Model/FS.lean; `glob` and `os.walk` are parameters, constrained by Spec/Packaging.lean only in what they contain, so all orders are covered. The traversal is shown to yield a declarative set (`Yield`), although its list of excluded prefixes grows on the way. C91-C95 refuted (string prefixes for path prefixes, overlaps, links), partial. Left out: time stamps in archives, special files, the collision warnings |
| C96-C100 | data/specfile.py 149-284, data/metadata.py, op/build.py 290-308, 421-469, 496-591 | a specification as decoded, the hooks as functions; `Describes` states the result in terms of the specification as written. Build dependencies over the databases of the planners. C97 refuted (two sources of the version), C99 and C100 refuted (undefined names, modelled as the errors they raise), C96 and C98 for builds in stages (C211). Left out: XML (C51), archives and patches of the source |
| C101-C105 | db/lockeddbshelve.py, api.py 85-130, op/rebuilddb.py 117-129, 147-162, util/fs.py 348-354 | a transition system of processes as lists of atomic actions (version checks, writing of version files in two steps, opening, locking, closing and unlinking lock files, opening and removing databases) under arbitrary interleaving, kills and forks; flock as documented, by inode and shared descriptor. One inductive invariant of 19 clauses for the locks (Lemmas/DbEnv.lean), runs of single processes under it (Lemmas/DbEnvRun.lean), a simulation for C105. C101-C104 refuted (pisi clean, inherited descriptors, order of rebuild-db, empty version file), partial. Left out: permissions, Berkeley DB itself; a database is reduced to the version of its creator |
| C106-C108 | op/rebuilddb.py 98-115, 131-165, util/fs.py 348-354, cli/clean.py, util/pkg.py 72-86 | entries of the directories package and index as lists in any order, the file system of C24 for pisi clean. C108 by an invariant of the first loop relating the newest versions and the replicas to the directories seen; C107 refuted (missing names), with the exact failure; C106 refuted (current directory), with the exact effect. Left out: virtual_install and resurrect_package, which are never reached |
| C109-C112 | op/repo.py 53-97, data/index.py 53-84, file.py 70-218, op/index.py 31-47 | one repository with a remote address: the directory with its files as a dictionary, the index in the database as an abstract value; a small monad that lists every state passed through, so that killing is taking a prefix; the answers of the server are arbitrary and may differ in each command; hash, bzip2, XML reading and gpg are arbitrary functions (in C112 with the laws they should obey). Fetching and the transaction are taken as atomic, as proved in C36 and C29. Partial, each with a refutation. Left out: repositories in local directories, gpg's inline signatures, the file names sent by servers |
| C113-C120 | actionsapi/pisitools.py 50-52, 153-249, actionsapi/shelltools.py 45-166, actionsapi/__init__.py 23-27 | the file system as a dictionary from places (lists of names) to files, links and directories; path names are resolved component by component with `..` and links as the kernel does; os, glob, fnmatch, shutil and fileinput of Python 2.7 modelled as functions on it (Model/ActionsFS.lean), the calls of scripts on top (Model/ActionsApi.lean); a script is a list of calls, failures keep the state reached. Exact effects as equations for every place; an invariant for C113. `re.sub` is an arbitrary function on a line, and for literal patterns the replacement of Spec/Replace.lean. Left out: permissions, owners, times, hard links, special files, `rmtree` interrupted half-way, the remaining functions of pisitools (dohtml, doman, domo, newdoc, newman). All but C120 partial, each with a refutation; the matching of patterns is proved equal to a declarative reading of them (Spec/Glob, `fnmatch_iff`, `glob1_iff`) |
| C121-C123 | actionsapi/pisitoolsfunctions.py 45-96, actionsapi/pisitools.py 41-69, 97-123, 198-202, actionsapi/shelltools.py 223-225, util/process.py 25-34 | the command line as a string; `str.split`, the splitting of the shell into words with double quotes (other special characters: the model does not follow, nothing is done) and GNU install with its arguments; exit codes are not looked at by the code. Left out: Mac OS, owners and modes |
| C124-C127 | cli/pisicli.py 33-112, cli/command.py 20-210, cli/commands.py and the options of every class in cli/ | optparse of python 2 (long options with unambiguous abbreviations and `=`, clusters of short options, values, `--`, type int, conflicts of option strings) written out; the pre-parser; the registry of the metaclass; the 26 classes with their tables of options; loading of modules as a sequence of definitions. The specification gives the meaning of a line item by item. Left out: what `run` does, help texts, callbacks |
| C128-C130 | op/graph.py 26-58, data/graph.py 135-156, data/pgraph.py, op/emerge.py 40-160 | closure by the loop lemmas of the plans; the words and statements of the graphviz language as a specification; emerge as a trace of builds and installations, each of which may fail. Left out: layout of the file, builds themselves |
| C131 | data/index.py index/add_*, util/path.py removepathprefix, uri.py (urlparse of python 2.7) | `indexDir` over the result of os.walk (a parameter); induction over the walk; specification `Lists`, `Readable` by names leading to files. Refuted for directories named like `a:b`. |
| C132 | op/install.py from_name, op/build.py from_name, data/package.py Package.__init__ | Combines C131, C28 and C25 (`update_db_exact`, `whichRepo`) with the resolution of URIs. Refuted for `#`; all remote repositories fail. |
| C133 | data/index.py, db/package.py | `offered_is_last`; refuted by an order in which the older one comes last. |
| C134 | db/source.py pkgtosrc/add_spec/remove_repo | Invariant `Sourced` of the databases over all histories. Refuted by a source in two repositories. |
| C135 | util/fs.py 90-132 (Model/ArFile) | format of ar(5) written down separately (Spec/ArFile); induction over the members, lines split at the end of every header; not modelled: the system calls, sha1 (any function) |
| C136, C137 | util/fs.py 266-341 (Model/Strip) | the calls of strip_file as a list, computed exactly for all trees; entries of NoStrip mean the names along them (Spec/Path); infixes over the separator of `file`; not modelled: the sed commands on .la files, strip and objcopy, quoting of the paths |
| C138, C139 | cli/listcmd.py 91-200 (Model/ListCmd) | on the reachable states of Model/PackageDB with the invariant of C26/C27; `list.sort` is any function that permutes; not modelled: colours and padding of the lines |
| C140 | op/build.py 823-837, archive.py 86-130, data/package.py 119-131 (Model/Tar) | invariant over the members: places above are missing or directories, places of files hold no directory (Spec/Tar); hard links by inodes remembered while packing; errors of `TarFile.extract` are swallowed as at errorlevel 0; not modelled: owners, time stamps, device nodes, the bytes of tar and lzma |
| C141 | archive.py 62-104, 162-174, 312-319, sourcearchive.py 52-77 (Model/Tar) | cache as a map from names to contents; `lzma -d` replaces the file by the one without suffix; decompression is any partial function |
| C142 | op/build.py 817-822, archive.py 183-273 (Model/Tar with Model/Unpack) | the members written, then C48's unpacking; attributes of zip entries as numbers |
| C143 | actionsapi/variables.py 23-38, 107-113, op/build.py 210-239, 372-391, 861-866, config.py 63-65, shelltools.py 195-197, get.py 58-63 (Model/BuildEnv) | two environments, of the interpreter and of the process; assigning to an item changes both, binding the name only the first; relation between the states of two runs, preserved by every step; not modelled: output of programs, `os.putenv` in scripts |
| C144, C145 | op/install.py 88-118, 165-350, op/remove.py 46-83, 132-148 (Model/InstallOp) | each step may fail as given from outside; case analysis of every end of an operation (`install_late`, `remove_cases`), invariant over histories; files of different packages are different, configuration and permanent files left out (C31-C34), database part atomic (C35), versions are version and release together |
| C146 | comariface.py 57-134 (Model/Comar) | any server as a state machine whose replies queue up on the link; the grammar of answers is in Spec/Comar; `comar.Link` itself is not modelled; timing is not modelled |
| C147 | cli/command.py 117-138, fetcher.py 135-136, 241-269, 296-316 (Model/Auth) | base 64 byte by byte; what a server reads is in Spec/Auth, once strict and once leaving out ends of lines; urllib2 itself is not modelled |
| C148 | cli/search.py 98-136, db/files.py 39-68 (Model/SearchFile) | over the file system with links of Model/ActionsFS; fnmatch as in Model/ActionsInstall; its cache is not modelled |
| C149 | util/fs.py 242-320, file.py 203-216, archive.py 96, util/pkg.py 88-91, actionsapi/pisitoolsfunctions.py 62-96 (Model/Shell) | the commands as fields; how the shell splits a command into words and runs is in Spec/ShellCmd: blanks, quotes, backslashes, `;`, `&`, `|`, redirections; words with other special characters are given no meaning there |
| C150 | op/build.py 241-288, 375, 482-486, 745-760, 800-803 (Model/RemoteBuild) | addresses and local paths of everything fetched against what is read; whether fetching succeeds is in Model/Fetch |
| C151 | op/build.py 745-760 (Model/RemoteBuild) | the path only; copying and modes are not modelled |
| C152 | actionsapi/coreutils.py 26-83 (Model/Pipes) | files as lists of lines, regular expressions as a predicate on texts (match) with those beginning with `.*` treated in full; each pipe a function on lists; proved by induction over the lists.  `print` is modelled as appending to the output; encodings are not modelled |
| C153 | op/install.py 247-309, op/remove.py 93-130 (Model/InstallFiles) | composition of the two models; the extraction is shown to add exactly the members and the directories on their way, the removal keeps the invariant "everything that is new is still to be removed or a directory with something in it", which at the end leaves nothing new as paths get longer downwards.  Not modelled: permissions, links in the way |
| C154 | op/upgrade.py 80-169 (Model/UpgradeRun on top of Model/UpgradePlan and Model/InstallPlan) | `upgradeRun` composes selection, base component, planning, the dry-run and confirmation exits and the execution loop; `execInstall_ok` (induction over the order) says what a completed run did to the databases. Not modelled: `security`, `ignore_dependency`, package sizes, downloads, `upgrade_pisi`. |
| C155 | op/upgrade.py 171-240, 154-166; op/install.py 135-140 (same models) | `execInstall_runs`: an order runs to the end if each dependency is satisfied at the start or on an earlier package and is met by the repositories; discharged from `planUpgrade_ok` for the forward part. Full statement refuted by a package dragged in with a further new dependency. |
| C156 | op/upgrade.py 171-240, 154-166; data/dependency.py 58-106 (same models) | `satisfied_after` characterises satisfaction after a run; the condition on staying packages is shown necessary; full statement refuted by a package pinned to the old release. |
| C157 | actionsapi/shelltools.py 126-166, pisitools.py 215-224 (Model/ActionsFS, Model/ActionsApi; Spec/Copy) | `Copied` compares the file systems before and after place by place; `shutilCopytree_copied` is an induction over the depth with an inner induction over the names (`Mid`: what is copied so far). shutil.copytree itself is modelled from the python library; modes and times are not. |
| C158 | actionsapi/pisitools.py 125-142 (Model/ActionsMan) | The command line goes through the model of the shell (`plain_words`), `domanPages_ok` is an induction over the pages that keeps the file system a tree and counts which places can change. |
| C159 | actionsapi/pisitools.py 71-91 (Model/ActionsMan; Spec/Html) | `HtmlName`, `HtmlOf` say which files are meant without `splitext` and `os.walk`; `osWalk_files` shows the walk comes to exactly these (induction over the depth), `Installed` is the invariant of the three nested loops. os.walk is run before the first file is installed (the program interleaves; the destination is not below the source). |
| C160 | actionsapi/pisitools.py 226-239 (Model/ActionsMan) | `copy_file_exact` gives the file system after the copy, then C121 and C158 are applied to it. |
| C161 | actionsapi/autotools.py 58-165, kde.py 50-83, perlmodules.py 50-87, pythonmodules.py 48-68, scons.py 39-45, libtools.py 36-55 (Model/BuildTools; Spec/BuildTools) | The computer is any type of states with any effects and exit statuses. `Ends` is an invariant of the combinators the helpers are made of, `script_ends` an induction over the script. |
| C162 | the same, op/build.py 140, 372-391 | The words are those of the POSIX reader of Spec/ShellCmd; `plain_run` shows how a plain line is read after `system` squeezed it, `scons_default` what the default parameter is after any packages. |
| C163 | actionsapi/pythonmodules.py 53-63 (Model/BuildTools) | `docs_run` is an induction over the string the loop goes through. |
| C164 | actionsapi/shelltools.py 223-225 (Model/ActionsInstall `squeeze`; Spec/ShellCmd) | `rd_squeeze`: induction over the line, the reader of the spec does not see how many blanks there are. |
| C165 | api.py 138-141, util/fs.py 38-49, config.py 82-112 (Model/Cache on the file system of Model/ActionsFS; Spec/Cache) | `one`: making a directory and removing it leaves nothing below it and all else unchanged; three of them one after the other. |
| C166 | util/fun.py 81-88, op/install.py 530-532, op/upgrade.py 146-148 (Model/HumanSize; Spec/HumanSize) | Floats are modelled as exact fractions; `%.2f` as the nearest hundredth. `human_cases` gives the closed form, the rest is arithmetic. |
| C167 | op/build.py 471-496, util/fs.py 222-265, util/process.py 25-35, data/specfile.py 66-71 (Model/Patches; Spec/Patches) | `patch`, `gunzip` and `bunzip2` are any functions, command lines are read with the POSIX reader of Spec/ShellCmd. Induction over the patches. |
| C168 | actionsapi/pisitools.py 144-151 (Model/ActionsMisc on Model/ActionsFS) | `msgfmt` is any partial function of texts. `move_file` says what moving a file to a free place does, `domo_partial` composes it with making the directories. |
| C169 | actionsapi/libtools.py 42-51 (Model/ActionsMisc) | `osWalk_all`: the walk comes to every file below and to nothing else; `Renewed` is an invariant of the loops, `gnuconfigFile_step` one step of it. |
| C170 | actionsapi/shelltools.py 53-59 (Model/ActionsMisc) | `walk_put`: writing a file changes the way of no path; induction over the calls. |
| C171 | actionsapi/shelltools.py 168-179 (Model/ActionsMisc) | `glob` of a name without wild cards is the question whether it is there. |
| C172 | actionsapi/libtools.py 57-75 (Model/ActionsMisc) | Exact writes on file systems without links; the mode of the file is not modelled. |
| C173 | the files of C161, perlmodules.py 80-87, autotools.py 100-103 (Model/BuildTools; Spec/BuildLines) | The table of the spec has the parts of every command line; `run_line` shows how a line is read after `system` squeezed it. Case by case over the calls, for any machine. |
| C174 | cli/install.py 55-62, cli/remove.py 44-51, cli/upgrade.py 67-86, op/install.py 365-582, op/upgrade.py 51-166, op/remove.py 154-208, op/conflict.py 64-89, cli/__init__.py 112-125 (Model/Consent; Spec/Consent) | The commands as programs over any state that leave a list of events; an invariant of the events through sequence, loops and questions. Plans and the single operations are any functions. Witnesses for the two exceptions. |
| C175 | as C174 | First no: by cases over where a question can stand, everything before the first question is talk. Any no: nothing follows a no, where only one question can be asked. Witnesses for removed conflicts and for package files. |
| C176 | as C174 (also Props/ConsentPlans) | Invariant "every package done so far was named or shown in a question answered with yes" through the programs; counting: an order without repetitions that has all asked packages and is not longer has nothing else. `consent_bound` (Props/ConsentBound) counts what a silent run treats against the names given, without these conditions. `plans_fair` shows the hypothesis for the planners of C09, C13 and C16. Witnesses for upgrades, named installed packages and system.base. |
| C177 | op/install.py 452-483, 551-582; op/upgrade.py 171-240; op/remove.py 210-240 (Model/InstallPlan, UpgradePlan, RemovePlan, InstallPkgFiles; Spec/PlanOrder) | Two legal schedules for permuted names: the worklist computes the closure of the names under the edges whatever the order (`closure_indep`), both topological orders are permutations of it, and a cycle is a fact about the graph. `run_agree`, `removed_agree`: with the records after complete runs. |
| C178 | cli/repo.py 116-127, op/repo.py 53-78 (Model/RepoCmds; Spec/RepoCmds) | Reading one index is an arbitrary answer (its inside: C109-C112); the loop over the databases of C25-C28. Induction over the names: those before the first bad answer are updated. Witness: two repositories, the first down. |
| C179 | cli/repo.py 85-92, op/repo.py 41-48 | Induction over the names with `remove_repo_list` and `remove_repo_items` of C27. |
| C180 | op/repo.py 41-48, util/fs.py 45-49 | The disk as a set of places without links; `place` resolves a path. Witnesses: repositories called `/` and `..`. |
| C181 | cli/repo.py 52-67, 143-149, op/repo.py 33-39 | From C27 (`add_repo_position`) and the theorem about updating one repository. |
| C182 | pisi-spec.dtd (Spec/Dtd is a transcript), data/specfile.py 43-284, exml/autoxml.py 424-443 (Model/Xml, XmlClasses, SpecRead) | Validity as an inductive predicate over trees (content models as regular expressions, declared attributes). Each member's `decode` is characterised in terms of the tree (Lemmas/Dtd), validity is inverted to know which elements can occur, and the hook and the validation are followed field by field. `decode_hook` of archives is left out. |
| C183 | as C182 | Every member of every class against the DTD's attributes; an update has no `Type` element in a valid document. `unread`: what is not declared as a member makes no difference. |
| C184 | data/component.py 30-73, data/files.py 19-42 (Spec/RecordNeeds) | The same member lemmas, without a DTD: optional elements must not begin with an element (`getNodeText` fails), long integers may end with `l`. |
| C185 | data/metadata.py 29-73 | As C184; `PartOf` is declared twice (base class and class), the package's `decode_hook` needs an update. |
| C186 | README.md 43-77, 96-119 (Spec/Manual is a transcript), cli/command.py, cli/pisicli.py (Model/Cli) | Tables are finite and compared by evaluation; the theorems quantify over all words and lines. |
| C187 | as C186; docs of the options in Spec/Manual | `command_runs`/the theorem about well formed command lines (Props/Cli) applied to each table. |
| C188 | uri.py 28-114 (Model/Uri), urlparse of Python 2.4 | The scheme is what comes before the first colon if all its characters are scheme characters; induction-free, by `takeWhile`/`dropWhile`. `Config.scheme` is now the same function. |
| C189 | data/index.py 102-111, data/component.py 143-186, db/source.py 72-80 (Model/PackageDB) | The cell of one component as a fold over the three lists of the index; prefixes, membership and absence of repetitions by induction. |
| C190 | as the properties it repeats (C43, C60, C89, C92, C106-C110, C142, C167-C172) | Props/Literals: the earlier theorems with names and texts written out as strings. |
| C191 | data/index.py `Index` as a record, exml/autoxml.py `read`, `decode_hook` of data/metadata.py | `Model/SpecRead.readIndex`, `Model/XmlClasses.index` | `Spec/IndexNeeds` says in terms of elements, attributes and texts what each record needs. `index_iff`: equivalence, built from one equivalence for each kind of member; `index_one`: one bad package is enough. |
| C192 | exml/autoxml.py `read`, `write` and the generated functions | `Model/Xml` (`read`, `write`, `decode`, `encode`) | `decode_safe`, by mutual induction over classes: what is read from any tree has only values that survive, up to zeros and the names of languages (`Spec/ReRead.Clean`). `reread_partial` composes it with C51 and C81; refuted for the number 0 (`reread_refuted`, `reread_refuted_zero`). |
| C193 | exml/autoxml.py, data/metadata.py | `Model/RecordEq.lean`: `==` of records by mutual recursion over classes; exactness by mutual induction against `SameVal`; refuted for the class with a base, whose inherited members are not compared; partial |
| C194 | cli/info.py, op/info.py, api.py | `Model/Info.lean`: what is printed and whether the command ends, over arbitrary lookups; induction over the arguments; refuted (`info_name` and `info` are not in `pisi.api`), exact condition and output as partial. The text of a component (`autoxml` formatters) is a parameter |
| C195 | op/install.py 332-350, op/remove.py 144-147, cli/listcmd.py 47-64, db/install.py, db/package.py | `Model/Installed.lean` joins the models of both databases; refinement of a map from names to packages (`InstalledAfter`) by an invariant over histories; each database part is one transaction |
| C196 | cli/search.py, cli/info.py | `search` of `Model/Info.lean` over arbitrary results; refuted as for C194; exact output and success condition |
| C197 | op/install.py, op/remove.py, op/conflict.py 80-87, db/package.py, db/install.py | `Model/Session.lean`: the planners of C12 and the dependency check read the joined databases of C195 and the result changes them; invariant over all sequences of commands (records of reverse dependencies sound, and complete except for packages replaced while depended on; dependencies met); refuted by a reinstallation, proved under `GentleRun`, whose conditions on replacements and conflicts are shown to be needed. Files, COMAR and the expansion of components are left out; an installation of several packages is a sequence of single ones |
| C198 | op/remove.py 33-73, 154-208 | the removal of C197's model; from the invariant the plan succeeds and its members are the reflexive transitive closure of depending; refuted and partial as C197 |
| C199 | op/install.py 90-140, 332-350 | one installation of C197's model after arbitrary commands; refinement of a map from names to packages; consistency afterwards characterised exactly |
| C200 | cli/listcmd.py 224-246, op/listops.py 35-38, op/upgrade.py 42-53 | `Both.listUpgrades` over the two databases of C195 after arbitrary commands; `is_upgradable` of C03 taken to that state by `world_inst`/`world_repo`; the sorting is any permutation; the texts printed are not modelled, `--long` is a failure at the first package |
| C201 | cli/check.py 47-62, api.py 146-159 | `Both.check` with the lines shown and whether it ended; `pisi.api.check` is missing, so an installed package ends the command; induction on the names |
| C202 | data/dependency.py 37-47 | `Dep.text`; unique reading of the text by its words, compared to `Sat` of C02 |
| C203-C205 | exml/xmlextpiks.py 39-172 | `Model/XmlTree.lean`: the loops over the tags of a path on the trees of C51; spec by recursion over the document (`nodesAt`), `Grown` for "one place changed"; induction on the path. Not modelled: empty texts, the memory of piksemel |
| C206 | exml/xmlfile*.py, xmlextmdom.py | the parameters of the methods as lists of names, the functions of minidom on the same trees (no comments), a node that is added to being the list of the positions that lead to it; the functions of cDomlette are not modelled |
| C207 | cli/__init__.py, cli/colors.py, util/term.py, ui.py (debug) | `Model/Console.lean`: every call of the console as a function of the options on four outputs (stdout, stderr, log, title); `none` is an exception. UTF-8 coding, translations, progress bars and questions are not modelled here | `Spec/Console.lean`: lines, streams and log entries per call and `screen`, which removes control sequences. Induction over the calls with the invariant that no control sequence is open at the end of a stream; `_partial` because of titles and verbose actions (both refuting examples are theorems) |
| C208 | op/install.py 247-309 with reinstall | the models of C31 and C153 (`Model/InstallFiles.lean`) with the same list of files before and after | `Spec/Reinstall.lean`: what is to be at every path. A file in the way makes no difference to extracting a member (`extractEntry_del`), so the lemmas of C153 apply; loop invariants `Moved` for the backup and path-wise frames for the restoring. `reinstall_over` also says what happens to `.old` files. `_partial`: refuted for directories in the way |
| C209 | pisi-cli 30-83, context.py get_option | `Model/Handler.lean`: kinds of exceptions as the handler tells them apart, what is printed as a list of events, the status. Left out: conversion of the text of an exception to unicode, errors inside `pisi.api.finalize` | case analysis of kinds and options; the advice is compared with what the handler itself prints with `--debug`. `_partial`: refuted for DBRunRecoveryError and before the initialisation |
| C210 | op/check.py 32-45, op/install.py 247-309 | the models of C54 and C208 | `Spec/CheckInstalled.lean`: records that say what the members are. The loop that saves configuration files is the same for first and repeated installations (`backupNew_upg`), so C208 holds for first installations (`install_over`); then `check_reports` of C54. |
| C211 | op/build.py 185-208, 887-947 | `Model/BuildRun.lean`: the calls made by a build in one shot and by each stage, in turn up to the first failure; the checks of C98 and the component of C96 are those models, the other calls succeed or fail arbitrarily | The work between two stages is a segment of all work; segments add up, so an induction on the stages gives the same work and outcome. Also states C96 and C98 over all requests, refuted for builds in stages. |
| C212 | op/install.py 247-309 | the model of C31 and C208 | `Spec/UpgradeFiles.lean`: the new version put over the file system, with a set of files kept. The loop over the pairs of old and new records is that of a reinstallation of a merged list (`backupUpg_both`), so the steps of C208 apply; the state after the final `TypeError` is the last one of the trace (`Ends`). The check: C210. |
| C213 | op/install.py 143-160, 247-309 | the model of C208, once per package | `Spec/InstallMany.lean`. Induction on the list from its end: what is known of the first file system (`Fits`) is carried to the one after the packages before (`Step.next`), the results add up (`Step.puts`); they depend on the set of packages only (`many_order`). The check: C210. |
| C214 | op/install.py 247-309, op/remove.py 70-130 | the models of C208 and C33, any number of times, and changes of configuration files by the user between | `Spec/FileHistory.lean`. An invariant (`SysInv`: there is room for every package, and what is installed is whole) is kept by installing (from C213's `Step`), by removing (only listed files and emptied directories go) and by changing texts; the check of what is whole: `check_whole`. Texts of the user: `edits_stay`, induction on the history. |
| C215 | fetcher.py UIHandler, _do_grab; ui.py Progress; cli/__init__.py display_progress | `Model/Progress.lean`: the handler as a state that every update changes, with all readings of the clock as arguments; the loop of `_do_grab` over the text of the file. Not modelled: the rate, the layout of the line, rounding of floating point numbers | `Spec/Progress.lean`. Induction on the turns (`loop_good`) and on the updates (`updates_lines`); the remaining time by arithmetic (`eta_shown`). |
| C216 | actionsapi/get.py 165-213 | `Model/Binutils.lean`: `PATH` as a text that is split at colons, existence of files as a function | `Spec/Binutils.lean` says with `Splits` what the directories are; case distinction. |
| C217 | cli/help.py, cli/command.py 53-78 (Model/HelpCmd on Model/Cli) | `get_command` makes the command with the words of the program, so each command named reads the line again with its own options. Soundness and completeness of the parser (C124) carry a line of help over to any table that contains help's options, as long as long options are in full; the tables are compared for the 26 commands. Password prompts and texts are not modelled. |
| C218 | op/build.py 185-208, 402-419, 722-870, util/fs.py 242-263, archive.py 104-130 (Model/WorkDir) | A build is a list of parts, each plain work, the creation of a package, or a body between two `chdir`s without `finally`; bodies are arbitrary, including user code. Induction over the parts and over the sources. Directories are names; whether they can be entered is arbitrary. |
| C219 | op/install.py (`Install.extract_install` over another version, failed installations), op/remove.py | Model/InstallFiles (`extractInstall`), Spec/UpgradeHistory (`udeed`: what a deed does to files and records) | Props/UpgradeHistory: `upgrades_partial` by an invariant over all histories (room for all versions, what is installed is whole); the upgrade is an installation of the merged list (C212); `upgrade_fails_iff` gives the failures exactly. Not modelled: questions (answered yes), scripts of packages, the order of versions (any version may follow any other). |
| C220 | op/install.py, op/remove.py (`Remove.remove_file`) | as C219, Spec/Leftovers | Props/Leftovers: `leftovers_partial` by induction over the history with the invariant of C219; removals delete what they list (C33). Directories are not claimed (C153 has those of one package). |
| C221 | cli/build.py (`Build.run`), cli/emerge.py (`Emerge.run`) | Model/BuildCmd; the library calls are named acts that succeed or fail | Props/BuildCmd: `build_eq` by cases on the options, `loop_spec` by induction over the names. |
| C222 | op/install.py 247-309, archive.py `unpack_dir`/install of tar members | the models of C31 and C153 (`Model/InstallFiles.lean`), whose results carry the list of all states in between; `Spec/Interrupted.lean`: an inductive relation, any number of installations each stopped in one of these states | Props/Interrupted: invariant `Mid` (the tree is well formed and each place holds what it held or what the package may put there) of every step (`backup_mid`, `extractEntry_mid`, `restore_mid`), hence of all interruptions; then `reinstall_over` of C208 applies. For configuration files the invariant `Kept`. `_partial`: refuted for configuration files that were cut off |
| C223 | op/remove.py 58-130 (`Remove.run` up to the databases, `remove_file`) | Model/RemoveSteps: the model of C33 with the states after each system call, shown to have the same results (`removeFiles_res`) | Spec/RemoveAgain: an inductive relation as in C222. Props/RemoveAgain: invariant `Down` (each place holds what it held, or nothing if it was to be removed or is a directory above) of every step, and of every completed removal that what is to go is gone. `_partial`: refuted for emptied directories |
| C224 | op/install.py 247-309, archive.py members | the models of C31 and C153, as for C222, with a record of another version; `Spec/InterruptedUp.lean` | Props/InterruptedUp: the invariant `Mid` of C222 for the package of which only the configuration files of both versions count as such (`Pack.over`); the next upgrade by the steps of C208 with the list `merged` of C212; for configuration files the invariant `KeptUp`. `_partial`: refuted, the user's text is lost when the next upgrade meets the new version's file |
| C225 | op/install.py 247-309, op/remove.py 58-130 | the models of C222 and C223; `Spec/CrashHistory.lean`: a relation between states (file system, recorded packages, packages with something interrupted) | Props/CrashHistory: induction over the history; `Mid` of C222 and `Down` of C223 bound what each state of an operation can differ in, `Allowed.other` that this is no place of another package; completed operations by `reinstall_over` (C208) and `remove_total` (C33) |
| C226 | op/install.py 247-309, op/remove.py 93-130, archive.py 244-282 | the step-by-step models of C222 and C223; `Spec/Calls.lean`: what one system call does to a disk | Props/Calls: `Tr.Fine` (the disks form a chain of steps and the result is the last) holds of every primitive and is kept by sequencing |
| C227 | op/install.py 247-309, op/remove.py 58-130 | the models of C222-C224; `Spec/CrashUpgrades.lean`: a relation between states, with the families of versions of C219 | Props/CrashUpgrades: induction over the history as in C225; `Allowed.version` and `RoomOver.version` bound what a version that is being installed can do at the places of any other version |
| C228 | cli/graph.py 61-85, data/pgraph.py 81-83 (Model/GraphCmd) on top of C128, C129 and Model/ItemByRepo; option parsing, `finalize` and the messages are not modelled, nor what is in the file when writing fails on an empty name | Props/GraphCmd: `holds_getItem` and `names_asked` show that the code reads the place named by the options (Spec/GraphCmd), then C128 and C129 Props/GraphSession: the invariants of C197 give soundness of the data after any commands. |
| C229 | op/conflict.py, op/install.py 129-133, 481-482, 579-580, op/upgrade.py 238-239 (Model/ConflictRun on Model/Session and Model/Conflict; Spec/ConflictRun) | A request checks the conflicts of all its packages, removes what is in conflict and installs any number of them in turn; histories of requests and other commands. Induction on the history: what is installed was requested; a step adds only packages of its order, and none of these declares a conflict with what is left (C29, `check_conflicts_removed_of`). Refuted by a conflict that only the earlier package declares. Left out: files, COMAR; the metadata of a package are those of its request. |
| C230 | op/install.py 147-163, 302-347, op/remove.py 30-42, 144-147, db/files.py 23-51 (Model/OwnerRun on Model/FilesDB; Spec/OwnerRun) | Histories of installs (with the answers of `os.path.isdir` and whether conflicts are ignored) and removals over the stored file lists and the files database. Induction on the history for soundness of the records; a second one, per path, for completeness. Refuted by an upgrade. Left out: the disk and interruptions (C222 to C227), packages whose name-version-release coincide. |
| C231 | fetcher.py 131-180, 241-257, 296-313, 363-383 (Model/Fetch; Spec/FetchMix) | The model of C36; each source has some version out of any set. A download from `d` on with a server that has `c` is one of `d` followed by the end of `c`, so the lemmas of C36 apply with that text as the file; induction on the mirrors and the attempts. Refuted by two attempts, and by two mirrors in one. |
| C232 | fetcher.py 146-180, 241-257, 296-313, data/package.py 87-90 (Model/FetchPar; Spec/FetchPar) | A transition system: any number of processes, two paths, inodes that stay open after a rename or removal; each system call is a step. Invariant without continuation: of every inode some process that has or had it open has written all up to its place, and all other characters are right. Invariant under the lock: the partial file is a beginning of the file and is not the destination's inode. Refuted by two runs of two processes. Left out: errors of the medium, several different addresses with one file name (C231). |
| C233 | data/package.py 133-156, archive.py 227-288 for the two control files, config.py 102-112 (Model/ReadPar; Spec/ReadPar) | A transition system: each call of `read` is a process, with a directory and a package of its own; removing, opening, each block written, closing and the two readings are steps; files are inodes. A ghost labelling gives every inode one name of one directory for ever; the invariant of an undisturbed process says which members are in place. delete-cache may remove any file at any moment. Refuted by two runs. Left out: members below config/, modes, install.tar.lzma, what the parsers make of the texts. |
| C234 | api.py 138-141, cli/deletecache.py 43 over the system of C232 (Model/FetchPar `Wipe`; Spec/FetchWipe) | Steps that remove the partial file or the destination at any moment. The invariants of C232 hold relative to a start with or without a file at the destination; the one for one fetch at a time allows the partial file to have been deleted while it is open. Refuted by a run with one fetch that was broken off, one that continues, and a deletion between. Left out: the directory itself being removed (then opening fails). |
| C235 | cli/command.py 105-115 (Model/DestDir on the file system of Model/Unpack; Spec/DestDir) | `Leads` gives the meaning of a path as an inductive relation without bounds; resolution is sound for it, keeps its result when directories are added, and its result has directories all along. Induction over the names for makedirs. Not modelled: the algorithm of os.path.realpath (taken as what the path leads to), other umasks. |
| C236 | op/build.py 746-837, archive.py 132-160, api.py 131-132 (Model/PackRun, Spec/PackRun) | The build is a list of steps that can be stopped anywhere (`Stops`); histories of failed and killed builds (`Tries`) by induction, what is written by induction over packages and members, the temporary archive by an abstract run of the steps (`safe`). Not modelled: the contents of members, which have their own rows; that the order of the steps does not depend on other processes. |
| C237 | op/build.py 159-164, 797-837, cli/build.py 90-91, db/lockeddbshelve.py 86-102 (Model/PackPar, Spec/PackPar on C236) | Any number of processes, interleaved step by step and stopped anywhere (`Evs`). A simulation: the view of one process agrees on its own files with a run of it alone (`Alone`), by induction over the events with a frame lemma and a congruence lemma for steps. Not modelled: writing on through an open file that another process emptied. |
| C238 | data/package.py 119-156, op/install.py 76-111 (Model/PackLeft on C236) | Composes C236 with reading and unpacking: initial parts of a member list are split at the control files (`part_cases`), the temporary directory is arbitrary, so any history of other installations is covered. Not modelled: config files that the user changed, members below config/. |
| C239 | comariface.py 41-55 (Model/ComarWait) | The loop as an inductive relation without a bound on its length, with `timeout` as a double (multiples of 2^-55 rounded to 53 digits); total and deterministic, exact by induction over the attempts for every behaviour of the server over time and all durations. Not modelled: what connect does. |
| C53 | op/component.py, data/component.py | set theorem |
| C55 | db/itembyrepo.py | case analysis over the store order |
| C56 | data/component.py, db/package.py | refuted (re-adding under another component); partial by history induction |
| C57 | db/package.py | history induction |
| C54 | op/check.py | exactness; missing file aborts the check: refuted, partial |

## Database model

* `DBShelf.get(key, txn)` (dbshelve.py:199-209) takes the transaction as the
  *default* argument; a missing key yields the transaction object and the next
  attribute access raises.  The model has the resulting error.
* Each operation runs in one transaction: an operation that raises leaves the
  databases unchanged as the next process sees them (C35 and C63 treat the
  transaction helpers themselves: `ctx.txn_proc` does not abort).  Locking,
  caching and concurrent processes are not modelled.
* The full-text search indices updated by `PackageDB` are modelled separately
  (C39, C40), so `addPackage` of `Model/PackageDB.lean` omits them.

## File system model

* `Model/FS.lean`: absolute normalised path -> file, link or directory.  A
  link is followed in the last path component only.  Permissions, owners,
  times, hard links and errors of the medium are not modelled.
* A file being written passes through every prefix of its content; all other
  system calls (`rename`, `unlink`, `mkdir`, `rmdir`, `symlink`) are atomic.
* The hash function is an arbitrary function.
* Downloads: `urlgrab` is assumed to request the file from the size of the
  target on when `reget='simple'` is given, to append what it gets, and to raise
  `URLGrabError` otherwise.  What a server sends is arbitrary (theorems state
  what they assume of it).
* The package archive is modelled as the list of its members with their
  target paths; the zip variant of the extraction is modelled.
